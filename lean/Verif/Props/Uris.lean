import Verif.Spec.Uris

/-!
# C145: the paths of the server and the URIs of the editor
-/

namespace Tinymist.Uris

/-! ## Encoding -/

theorem hex_round : ∀ x, x < 16 → hexVal (hexDigit x) = some x := by decide

theorem decode_plain {b : Nat} (h : b ≠ 37) (rest : Bytes) : decode (b :: rest) = b :: decode rest := by
  rw [decode]
  intro a c r hb _
  exact h hb

theorem decode_encode (S : Nat → Bool) : ∀ s : Bytes, (∀ b ∈ s, b < 256 ∧ (S b = false → b ≠ 37)) → decode (encode S s) = s
  | [], _ => by rw [encode, decode]
  | b :: bs, h => by
    obtain ⟨h1, h2⟩ := h b (List.mem_cons_self ..)
    have ih := decode_encode S bs fun x hx => h x (List.mem_cons_of_mem _ hx)
    rw [encode]
    cases hs : S b with
    | true =>
      rw [if_pos rfl, decode, hex_round _ (by omega), hex_round _ (by omega)]
      simp only
      rw [ih, Nat.div_add_mod]
    | false =>
      simp only [Bool.false_eq_true, if_false]
      rw [decode_plain (h2 hs), ih]

theorem hexDigit_no_slash : ∀ x, x < 16 → hexDigit x ≠ 47 := by decide

theorem encode_no_slash {S : Nat → Bool} : ∀ {s : Bytes}, (∀ b ∈ s, b < 256 ∧ b ≠ 47) → 47 ∉ encode S s
  | [], _ => by simp [encode]
  | b :: bs, h => by
    obtain ⟨h1, h2⟩ := h b (List.mem_cons_self ..)
    have ih := encode_no_slash (S := S) (s := bs) fun x hx => h x (List.mem_cons_of_mem _ hx)
    rw [encode]
    split
    · simp only [List.mem_cons, not_or]
      exact ⟨by decide, (hexDigit_no_slash _ (by omega)).symm, (hexDigit_no_slash _ (by omega)).symm, ih⟩
    · simp only [List.mem_cons, not_or]
      exact ⟨h2.symm, ih⟩

theorem encode_append (S : Nat → Bool) (a b : Bytes) : encode S (a ++ b) = encode S a ++ encode S b := by
  induction a with
  | nil => rfl
  | cons x a ih =>
    rw [List.cons_append, encode, encode, ih]
    split <;> rfl

theorem encode_ne {S : Nat → Bool} {s : Bytes} (h : s ≠ []) : encode S s ≠ [] := by
  cases s with
  | nil => exact (h rfl).elim
  | cons b s => rw [encode]; split <;> simp

theorem hexVal_lt {c x : Nat} (h : hexVal c = some x) : x < 16 := by
  unfold hexVal at h
  repeat' split at h
  all_goals cases h
  all_goals omega

theorem decode_bytes : ∀ (s : Bytes), (∀ b ∈ s, b < 256) → ∀ b ∈ decode s, b < 256 := by
  intro s
  induction s using decode.induct with
  | case1 a b rest x y hx hy ih =>
    intro h c hc
    rw [decode, hx, hy] at hc
    simp only [List.mem_cons] at hc
    rcases hc with rfl | hc
    · have := hexVal_lt hx
      have := hexVal_lt hy
      omega
    · exact ih (fun z hz => h z (by simp [hz])) c hc
  | case2 a b rest hn ih =>
    intro h c hc
    rw [decode] at hc
    split at hc
    · rename_i x y hx hy; exact (hn x y hx hy).elim
    · rcases List.mem_cons.1 hc with rfl | hc
      · decide
      · exact ih (fun z hz => h z (by simp only [List.mem_cons] at hz ⊢; exact Or.inr hz)) c hc
  | case3 c rest hn ih =>
    intro h d hd
    rw [decode] at hd
    · rcases List.mem_cons.1 hd with rfl | hd
      · exact h _ (List.mem_cons_self ..)
      · exact ih (fun z hz => h z (List.mem_cons_of_mem _ hz)) d hd
    · exact hn
  | case4 => intro _ b hb; simp [decode] at hb

/-! ## Slashes -/

theorem splitSlash_ne (s : Bytes) : splitSlash s ≠ [] := by
  cases s with
  | nil => simp [splitSlash]
  | cons c cs =>
    rw [splitSlash]
    split
    · simp
    · split <;> simp

theorem splitSlash_no : ∀ {s : Bytes}, 47 ∉ s → splitSlash s = [s]
  | [], _ => rfl
  | c :: cs, h => by
    simp only [List.mem_cons, not_or] at h
    rw [splitSlash, if_neg (fun h' => h.1 h'.symm), splitSlash_no h.2]

theorem splitSlash_cons {n : Bytes} (h : 47 ∉ n) (t : Bytes) : splitSlash (n ++ 47 :: t) = n :: splitSlash t := by
  induction n with
  | nil => rw [List.nil_append, splitSlash, if_pos rfl]
  | cons c n ih =>
    simp only [List.mem_cons, not_or] at h
    rw [List.cons_append, splitSlash, if_neg (fun h' => h.1 h'.symm), ih h.2]

theorem split_slashed : ∀ {ns : Path}, ns ≠ [] → (∀ n ∈ ns, 47 ∉ n) → splitSlash (slashed ns) = ns
  | [], h, _ => (h rfl).elim
  | [n], _, h => by rw [slashed, splitSlash_no (h n (List.mem_cons_self ..))]
  | n :: m :: rest, _, h => by
    rw [slashed, splitSlash_cons (h n (List.mem_cons_self ..)),
      split_slashed (by simp) fun x hx => h x (List.mem_cons_of_mem _ hx)]

theorem encode_slashed {S : Nat → Bool} (h : S 47 = false) : ∀ ns : Path, encode S (slashed ns) = slashed (ns.map (encode S))
  | [] => rfl
  | [n] => rfl
  | n :: m :: rest => by
    rw [slashed, encode_append, encode, h]
    simp only [Bool.false_eq_true, if_false, List.map_cons]
    rw [encode_slashed h (m :: rest), slashed, List.map_cons]

theorem splitSlash_pieces : ∀ (s : Bytes), ∀ p ∈ splitSlash s, 47 ∉ p ∧ ∀ b ∈ p, b ∈ s
  | [], p, h => by
    rw [splitSlash] at h
    cases List.mem_singleton.1 h
    exact ⟨by simp, by simp⟩
  | c :: cs, p, h => by
    rw [splitSlash] at h
    split at h
    · rcases List.mem_cons.1 h with rfl | h
      · exact ⟨by simp, by simp⟩
      · obtain ⟨h1, h2⟩ := splitSlash_pieces cs p h
        exact ⟨h1, fun b hb => List.mem_cons_of_mem _ (h2 b hb)⟩
    · rename_i hc
      split at h
      · rename_i hn; exact (splitSlash_ne cs hn).elim
      · rename_i s ss hs
        rcases List.mem_cons.1 h with rfl | h
        · obtain ⟨h1, h2⟩ := splitSlash_pieces cs s (by rw [hs]; exact List.mem_cons_self ..)
          refine ⟨fun hm => ?_, fun b hb => ?_⟩
          · rcases List.mem_cons.1 hm with h | h
            · exact hc h.symm
            · exact h1 h
          · rcases List.mem_cons.1 hb with rfl | hb
            · exact List.mem_cons_self ..
            · exact List.mem_cons_of_mem _ (h2 b hb)
        · obtain ⟨h1, h2⟩ := splitSlash_pieces cs p (by rw [hs]; exact List.mem_cons_of_mem _ h)
          exact ⟨h1, fun b hb => List.mem_cons_of_mem _ (h2 b hb)⟩

/-! ## Components -/

theorem components_names : ∀ {p : Path}, (∀ n ∈ p, IsName n) → components p = p
  | [], _ => rfl
  | n :: p, h => by
    obtain ⟨h1, h2, h3, _⟩ := h n (List.mem_cons_self ..)
    have ih := components_names (p := p) fun x hx => h x (List.mem_cons_of_mem _ hx)
    unfold components at ih ⊢
    rw [List.flatMap_cons, splitSlash_no h3, List.singleton_append, List.filter_cons_of_pos, ih]
    have h2' : n ≠ [46] := h2
    simp [h1, h2']

theorem components_good {ts : List Bytes} (h : ∀ t ∈ ts, ∀ b ∈ t, b < 256) : ∀ n ∈ components ts, IsName n := by
  intro n hn
  obtain ⟨h1, h2⟩ := List.mem_filter.1 hn
  obtain ⟨t, ht, hnt⟩ := List.mem_flatMap.1 h1
  obtain ⟨h3, h4⟩ := splitSlash_pieces t n hnt
  simp only [Bool.and_eq_true, bne_iff_ne, ne_eq] at h2
  exact ⟨h2.1, h2.2, h3, fun b hb => h t ht b (h4 b hb)⟩

theorem untitled_eq : "untitled".toList.map Char.toNat = untitledName := by decide

theorem segment_encode {n : Bytes} (h : IsName n) : decode (encode segmentSet n) = n := by
  refine decode_encode _ n fun b hb => ⟨h.2.2.2 b hb, fun hs he => ?_⟩
  subst he
  exact absurd hs (by decide)

/-! ## The claims -/

/-- **C145**: the URI that is sent for a file is the one of that file. -/
theorem file_round {p : Path} (h : OnDisk p) : urlToPath (pathToUrl p) = some p := by
  obtain ⟨⟨hne, hn⟩, hu⟩ := h
  rw [untitled_eq] at hu
  cases p with
  | nil => exact (hne rfl).elim
  | cons n rest =>
    have hh : n ≠ untitledName := fun h => hu rest (by rw [h])
    simp only [pathToUrl, if_neg hh, urlToPath, fromFilePath, toFilePath, List.cons_ne_nil, if_false]
    have hspecial : ¬ (true ∧ UPath.segs ((n :: rest).map (encode segmentSet)) = .segs [[]]) := by
      rintro ⟨_, h⟩
      simp only [List.map_cons, UPath.segs.injEq, List.cons.injEq] at h
      exact encode_ne (hn n (List.mem_cons_self ..)).1 h.1
    simp only [true_and] at hspecial
    simp only [true_and, if_neg hspecial, Bool.false_eq_true, if_false]
    have : ((n :: rest).map (encode segmentSet)).map decode = n :: rest := by
      rw [List.map_map]
      conv => rhs; rw [← List.map_id (n :: rest)]
      exact List.map_congr_left fun x hx => segment_encode (hn x hx)
    rw [this, components_names hn]

/-- **C145**: two files have different URIs. -/
theorem file_urls_differ {p q : Path} (hp : OnDisk p) (hq : OnDisk q) (h : pathToUrl p = pathToUrl q) : p = q := by
  have h1 := file_round hp
  rw [h, file_round hq] at h1
  exact (Option.some.inj h1).symm

/-- **C145**: however the editor writes the URI of a file, the one that it gets back is of the same file. -/
theorem answered_same {u : Url} {p : Path} (hs : u.scheme = .file) (hb : ∀ ss, u.path = .segs ss → ∀ s ∈ ss, ∀ b ∈ s, b < 256)
    (hp : urlToPath u = some p) (hne : p ≠ []) (hu : ∀ rest, p ≠ "untitled".toList.map Char.toNat :: rest) :
    urlToPath (pathToUrl p) = some p := by
  refine file_round ⟨⟨hne, ?_⟩, hu⟩
  rw [urlToPath, hs] at hp
  simp only at hp
  split at hp
  · cases hp
    exact (hu [neovimName] (by rw [untitled_eq])).elim
  · unfold toFilePath at hp
    split at hp
    · cases hp
    · rename_i ss hss
      split at hp
      · cases hp
      · cases hp
        refine components_good fun t ht b hbt => ?_
        obtain ⟨s, hsm, rfl⟩ := List.mem_map.1 ht
        exact decode_bytes s (hb ss hss s hsm) b hbt

/-- **C145**: a document can be opened with every URI of the schemes `file` and `untitled`, other than one with a host. -/
theorem url_taken (u : Url) : urlToPath u = none ↔
    u.scheme ≠ .untitled ∧ ((∃ t, u.path = .opaque t) ∨ u.host = true) := by
  obtain ⟨s, hst, p, t⟩ := u
  cases s with
  | untitled => simp [urlToPath]
  | other =>
    cases p with
    | segs ss => cases hst <;> simp [urlToPath, toFilePath]
    | «opaque» x => simp [urlToPath, toFilePath]
  | file =>
    cases p with
    | «opaque» x => simp [urlToPath, toFilePath]
    | segs ss =>
      cases hst with
      | true => simp [urlToPath, toFilePath]
      | false =>
        simp only [urlToPath, toFilePath]
        split <;> simp

/-! ### Documents without a file -/

theorem slashed_last (init : Path) (n : Bytes) (b : Nat) : ∃ t, slashed (init ++ [n ++ [b]]) = t ++ [b] := by
  induction init with
  | nil => exact ⟨n, rfl⟩
  | cons m init ih =>
    obtain ⟨t, ht⟩ := ih
    cases hi : init ++ [n ++ [b]] with
    | nil => simp at hi
    | cons x xs =>
      rw [List.cons_append, hi, slashed, ← hi, ht]
      exact ⟨m ++ 47 :: t, by simp⟩

theorem slashed_mem : ∀ {ns : Path} {b : Nat}, b ∈ slashed ns → b = 47 ∨ ∃ n ∈ ns, b ∈ n
  | [], b, h => by cases h
  | [n], b, h => Or.inr ⟨n, List.mem_cons_self .., h⟩
  | n :: m :: rest, b, h => by
    rw [slashed, List.mem_append, List.mem_cons] at h
    rcases h with h | h | h
    · exact Or.inr ⟨n, List.mem_cons_self .., h⟩
    · exact Or.inl h
    · rcases slashed_mem h with h | ⟨x, hx, hb⟩
      · exact Or.inl h
      · exact Or.inr ⟨x, List.mem_cons_of_mem _ hx, hb⟩

theorem takeWhile_all {P : Nat → Bool} : ∀ {l : Bytes}, (∀ x ∈ l, P x = true) → l.takeWhile P = l
  | [], _ => rfl
  | x :: l, h => by
    rw [List.takeWhile_cons_of_pos (h x (List.mem_cons_self ..)), takeWhile_all fun y hy => h y (List.mem_cons_of_mem _ hy)]

theorem trimEnd_keep (t : Bytes) {b : Nat} (h : 32 < b) : trimEnd (t ++ [b]) = t ++ [b] := by
  unfold trimEnd
  rw [List.reverse_append, List.reverse_singleton, List.singleton_append, List.dropWhile_cons_of_neg (by simp; omega)]
  simp

theorem clean_plain {p : Path} (h : ∀ n ∈ p, n ≠ [46, 46]) : clean p = p := by
  unfold clean
  suffices hs : ∀ (p acc : Path), (∀ n ∈ p, n ≠ [46, 46]) →
      p.foldl (fun acc s => if s = [46, 46] then acc.dropLast else acc ++ [s]) acc = acc ++ p by
    simpa using hs p [] h
  intro p
  induction p with
  | nil => simp
  | cons n p ih =>
    intro acc h
    rw [List.foldl_cons, if_neg (h n (List.mem_cons_self ..)), ih _ fun x hx => h x (List.mem_cons_of_mem _ hx)]
    simp

theorem untitled_isName : IsName untitledName := by
  refine ⟨by decide, by decide, by decide, ?_⟩
  decide

/-- **C145**, in part: the URI that is sent for a document without a file is the one of that document. Missing: names with
characters that mean something in a URI, see `hash_cut` and `percent_read`. -/
theorem untitled_round_partial {p : Path} (h : Untitled p) : urlToPath (pathToUrl p) = some p := by
  obtain ⟨init, last, b, rfl, hs, hb⟩ := h
  rw [untitled_eq]
  have hne : init ++ [last ++ [b]] ≠ [] := by simp
  simp only [pathToUrl, if_pos]
  by_cases hneo : init ++ [last ++ [b]] = [neovimName]
  · rw [if_pos hneo, hneo]
    rfl
  · rw [if_neg hneo]
    obtain ⟨t, ht⟩ := slashed_last init last b
    have hbytes : ∀ x ∈ slashed (init ++ [last ++ [b]]), x ≠ 9 ∧ x ≠ 10 ∧ x ≠ 13 ∧ x ≠ 63 ∧ x ≠ 35 := by
      intro x hx
      rcases slashed_mem hx with rfl | ⟨n, hn, hxn⟩
      · decide
      · obtain ⟨_, _, h3⟩ := hs n hn
        obtain ⟨a1, a2, a3, a4, a5, a6⟩ := h3 x hxn
        exact ⟨a4, a5, a6, a2, a3⟩
    have htrim : (trimEnd (slashed (init ++ [last ++ [b]]))).filter (fun b => b != 9 && b != 10 && b != 13) =
        slashed (init ++ [last ++ [b]]) := by
      rw [ht, trimEnd_keep t hb, ← ht, List.filter_eq_self]
      intro x hx
      obtain ⟨a1, a2, a3, _⟩ := hbytes x hx
      simp [a1, a2, a3]
    have htake : (slashed (init ++ [last ++ [b]])).takeWhile (fun b => b != 63 && b != 35) = slashed (init ++ [last ++ [b]]) := by
      refine takeWhile_all fun x hx => ?_
      obtain ⟨_, _, _, a4, a5⟩ := hbytes x hx
      simp [a4, a5]
    simp only [parseUntitled, urlToPath, htrim, htake]
    rw [encode_slashed (by decide), split_slashed (by simp) (by
      intro n hn
      obtain ⟨m, hm, rfl⟩ := List.mem_map.1 hn
      obtain ⟨⟨_, _, h3, h4⟩, _⟩ := hs m hm
      exact encode_no_slash fun x hx => ⟨h4 x hx, fun he => h3 (by rw [he] at hx; exact hx)⟩)]
    have hdec : ((init ++ [last ++ [b]]).map (encode controls)).map decode = init ++ [last ++ [b]] := by
      rw [List.map_map]
      conv => rhs; rw [← List.map_id (init ++ [last ++ [b]])]
      refine List.map_congr_left fun n hn => ?_
      obtain ⟨h1, _, h3⟩ := hs n hn
      exact decode_encode _ n fun x hx => ⟨h1.2.2.2 x hx, fun _ => (h3 x hx).1⟩
    rw [hdec, components_names, clean_plain]
    · intro n hn
      rcases List.mem_cons.1 hn with rfl | hn
      · decide
      · exact (hs n hn).2.1
    · intro n hn
      rcases List.mem_cons.1 hn with rfl | hn
      · exact untitled_isName
      · exact (hs n hn).1

/-- **C145**, in part: two documents without a file have different URIs, and none has that of a file. -/
theorem urls_differ_partial {p q : Path} (hp : Untitled p ∨ OnDisk p) (hq : Untitled q ∨ OnDisk q)
    (h : pathToUrl p = pathToUrl q) : p = q := by
  have h1 : urlToPath (pathToUrl p) = some p := hp.elim untitled_round_partial file_round
  have h2 : urlToPath (pathToUrl q) = some q := hq.elim untitled_round_partial file_round
  rw [h, h2] at h1
  exact (Option.some.inj h1).symm

/-! ## What goes wrong -/

/-- **C145**, negated in part: the URI of the root directory is taken for a document without a name. -/
theorem root_lost : urlToPath (pathToUrl []) = some [untitledName, neovimName] := rfl

/-- **C145**, negated in part: a document without a file whose URI has a slash behind the colon, as that of a file which is yet
to be created, is answered with another URI. -/
theorem untitled_slash_lost (ss : List Bytes) (tail : Bytes) {p : Path}
    (_hp : urlToPath ⟨.untitled, false, .segs ss, tail⟩ = some p) : pathToUrl p ≠ ⟨.untitled, false, .segs ss, tail⟩ := by
  intro h
  unfold pathToUrl at h
  split at h
  · split at h
    · split at h
      · cases h
      · cases h
    · cases h
  · cases h

/-- **C145**, negated in part: of the name of a document without a file, what is behind a hash is cut off, so that all these have
one URI but for the fragment. -/
theorem hash_cut {n r : Bytes} (hn : Simple n) (hr : Simple r) : urlToPath (pathToUrl [untitledName, n ++ 35 :: (r ++ [33])]) =
    some [untitledName, n] := by
  have hne : [n ++ 35 :: (r ++ [33])] ≠ [neovimName] := by
    intro h
    have : (35 : Nat) ∈ neovimName := by
      rw [← (List.cons.inj h).1]; simp
    exact absurd this (by decide)
  simp only [pathToUrl, if_pos, if_neg hne, slashed, parseUntitled, urlToPath]
  have e1 : trimEnd (n ++ 35 :: (r ++ [33])) = n ++ 35 :: (r ++ [33]) := by
    rw [show n ++ 35 :: (r ++ [33]) = (n ++ 35 :: r) ++ [33] by simp]
    exact trimEnd_keep _ (by decide)
  have e2 : (n ++ 35 :: (r ++ [33])).filter (fun b => b != 9 && b != 10 && b != 13) = n ++ 35 :: (r ++ [33]) := by
    rw [List.filter_eq_self]
    intro x hx
    simp only [List.mem_append, List.mem_cons, List.not_mem_nil, or_false] at hx
    rcases hx with hx | rfl | hx | rfl
    · obtain ⟨_, _, _, a1, a2, a3⟩ := hn.2.2 x hx
      have a1 : x ≠ 9 := a1
      have a2 : x ≠ 10 := a2
      have a3 : x ≠ 13 := a3
      simp [a1, a2, a3]
    · decide
    · obtain ⟨_, _, _, a1, a2, a3⟩ := hr.2.2 x hx
      have a1 : x ≠ 9 := a1
      have a2 : x ≠ 10 := a2
      have a3 : x ≠ 13 := a3
      simp [a1, a2, a3]
    · decide
  have e3 : (n ++ 35 :: (r ++ [33])).takeWhile (fun b => b != 63 && b != 35) = n := by
    rw [List.takeWhile_append_of_pos]
    · rw [List.takeWhile_cons_of_neg (by decide)]; simp
    · intro x hx
      obtain ⟨_, a1, a2, _⟩ := hn.2.2 x hx
      have a1 : x ≠ 63 := a1
      have a2 : x ≠ 35 := a2
      simp [a1, a2]
  rw [e1, e2, e3]
  have hslash : 47 ∉ encode controls n := encode_no_slash fun x hx => ⟨hn.1.2.2.2 x hx, fun he => hn.1.2.2.1 (by rw [he] at hx; exact hx)⟩
  rw [splitSlash_no hslash]
  simp only [List.map_cons, List.map_nil]
  rw [decode_encode controls n fun x hx => ⟨hn.1.2.2.2 x hx, fun _ => (hn.2.2 x hx).1⟩]
  rw [components_names, clean_plain]
  · intro m hm
    simp only [List.mem_cons, List.not_mem_nil, or_false] at hm
    rcases hm with rfl | rfl
    · decide
    · exact hn.2.1
  · intro m hm
    simp only [List.mem_cons, List.not_mem_nil, or_false] at hm
    rcases hm with rfl | rfl
    · exact untitled_isName
    · exact hn.1

/-- **C145**, negated in part: the document `%41` gets the URI of `A`. -/
theorem percent_read : urlToPath (pathToUrl [untitledName, [37, 52, 49]]) = some [untitledName, [65]] := by decide +kernel

/-- **C145**, negated in part: a document of another scheme, such as an old version of a file, is taken for the file. -/
theorem other_scheme_confused (ss : List Bytes) (h : ss ≠ [[]]) :
    urlToPath ⟨.other, false, .segs ss, []⟩ = urlToPath ⟨.file, false, .segs ss, []⟩ := by
  simp [urlToPath, toFilePath, h]

/-- **C145**, negated in part: the URI `untitled:../a` is that of the file `/a`. -/
theorem untitled_escapes : urlToPath ⟨.untitled, false, .opaque [46, 46, 47, 97], []⟩ = urlToPath ⟨.file, false, .segs [[97]], []⟩ := by
  decide +kernel

/-! ## Texts -/

/-- **C145**: an escape stands for the byte it gives the number of, in digits of either case. -/
theorem escape_decoded (a b x y : Nat) (rest : Bytes) (ha : Hex a x) (hb : Hex b y) :
    decode (37 :: a :: b :: rest) = (16 * x + y) :: decode rest := by
  have hv : ∀ c z, Hex c z → hexVal c = some z := by
    rintro c z (⟨rfl, h⟩ | ⟨h1, h2, rfl | rfl⟩)
    · rw [hexVal, if_pos (by omega)]; congr 1; omega
    · rw [hexVal, if_neg (by omega), if_pos (by omega)]; congr 1; omega
    · rw [hexVal, if_neg (by omega), if_neg (by omega), if_pos (by omega)]; congr 1; omega
  simp only [decode, hv a x ha, hv b y hb]

/-- **C145**: what is not an escape stands for itself. -/
theorem others_kept (c : Nat) (rest : Bytes) (h : c ≠ 37) : decode (c :: rest) = c :: decode rest := by
  rw [decode]
  rintro a b r h' _
  exact h h'

theorem hexDigit_digits : ∀ n < 16, hexDigit n = digits.getD n 0 := by decide

theorem encode_written (t : Bytes) (h : ∀ b ∈ t, b < 256) : encode controls t = t.flatMap written := by
  induction t with
  | nil => rfl
  | cons b t ih =>
    have hb := h b List.mem_cons_self
    rw [encode, ih fun x hx => h x (List.mem_cons_of_mem _ hx), List.flatMap_cons]
    rw [hexDigit_digits _ (by omega), hexDigit_digits _ (by omega)]
    by_cases hc : 32 ≤ b ∧ b ≤ 126
    · have : controls b = false := by simp [controls]; omega
      simp [this, written, hc]
    · have : controls b = true := by simp [controls]; omega
      rw [written, if_neg hc, if_pos this]
      rfl

theorem trimEnd_blanks (t blanks : Bytes) (ht : ∀ l, t.getLast? = some l → 32 < l) (hb : ∀ b ∈ blanks, b ≤ 32) :
    trimEnd (t ++ blanks) = t := by
  unfold trimEnd
  rw [List.reverse_append, List.dropWhile_append_of_pos (by simpa using hb)]
  rcases t.eq_nil_or_concat with rfl | ⟨t', l, rfl⟩
  · rfl
  · have := ht l (by simp)
    rw [List.concat_eq_append, List.reverse_append, List.reverse_singleton, List.singleton_append,
      List.dropWhile_cons_of_neg (by simpa using this)]
    simp

/-- **C145**: the URI of an unsaved document is its name with what cannot be seen escaped, up to a question mark or hash, and then
the rest; blanks behind are lost. -/
theorem untitled_url (rest : Path) (a tail blanks : Bytes) (hne : rest ≠ [neovimName]) (hs : slashed rest = a ++ tail ++ blanks)
    (hbytes : ∀ b ∈ a, b < 256) (ha : ∀ b ∈ a, b ≠ 63 ∧ b ≠ 35) (htail : tail = [] ∨ ∃ t, tail = 63 :: t ∨ tail = 35 :: t)
    (hlast : ∀ l, (a ++ tail).getLast? = some l → 32 < l) (hblank : ∀ b ∈ blanks, b ≤ 32)
    (htab : ∀ b ∈ a ++ tail, b ≠ 9 ∧ b ≠ 10 ∧ b ≠ 13) :
    pathToUrl (untitledName :: rest) = ⟨.untitled, false, .opaque (a.flatMap written), tail⟩ := by
  have hf : (a ++ tail).filter (fun b => b != 9 && b != 10 && b != 13) = a ++ tail := by
    rw [List.filter_eq_self]
    intro x hx
    obtain ⟨h1, h2, h3⟩ := htab x hx
    simp [h1, h2, h3]
  have hp : ∀ x ∈ a, (x != 63 && x != 35) = true := by
    intro x hx
    obtain ⟨h1, h2⟩ := ha x hx
    simp [h1, h2]
  have htk : (a ++ tail).takeWhile (fun b => b != 63 && b != 35) = a := by
    rw [List.takeWhile_append_of_pos hp]
    rcases htail with rfl | ⟨t, rfl | rfl⟩
    · simp
    · rw [List.takeWhile_cons_of_neg (by decide)]; simp
    · rw [List.takeWhile_cons_of_neg (by decide)]; simp
  have hdk : (a ++ tail).dropWhile (fun b => b != 63 && b != 35) = tail := by
    rw [List.dropWhile_append_of_pos hp]
    rcases htail with rfl | ⟨t, rfl | rfl⟩
    · rfl
    · rw [List.dropWhile_cons_of_neg (by decide)]
    · rw [List.dropWhile_cons_of_neg (by decide)]
  simp only [pathToUrl, if_true, if_neg hne, parseUntitled]
  rw [hs, trimEnd_blanks _ _ hlast hblank, hf, htk, hdk, encode_written _ hbytes]

/-- `/untitled/é?x `, whose name is two bytes that cannot be seen. -/
example : pathToUrl [untitledName, [195, 169, 63, 120, 32]] = ⟨.untitled, false, .opaque [37, 67, 51, 37, 65, 57], [63, 120]⟩ :=
  untitled_url _ [195, 169] [63, 120] [32] (by decide) rfl (by decide) (by decide) (.inr ⟨[120], .inl rfl⟩) (by simp) (by decide) (by decide)

/-! ## The claims are about something -/

/-- `/home/a b%.typ` -/
example : OnDisk [[104, 111, 109, 101], [97, 32, 98, 37, 46, 116, 121, 112]] := by
  refine ⟨⟨by simp, ?_⟩, by intro rest h; rw [untitled_eq] at h; exact absurd (List.cons.inj h).1 (by decide)⟩
  intro n hn
  simp only [List.mem_cons, List.not_mem_nil, or_false] at hn
  rcases hn with rfl | rfl
  · exact ⟨by decide, by decide, by decide, by decide⟩
  · exact ⟨by decide, by decide, by decide, by decide⟩

/-- `/untitled/Untitled-1` -/
example : Untitled [untitledName, [85, 110, 116, 105, 116, 108, 101, 100, 45, 49]] :=
  ⟨[], [85, 110, 116, 105, 116, 108, 101, 100, 45], 49, by rw [untitled_eq]; rfl, by
    intro n hn
    simp only [List.nil_append, List.cons_append, List.mem_cons, List.not_mem_nil, or_false] at hn
    subst hn
    exact ⟨⟨by decide, by decide, by decide, by decide⟩, by decide, by decide⟩, by decide⟩

end Tinymist.Uris
