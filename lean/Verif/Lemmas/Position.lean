import Verif.Spec.Position
namespace Tinymist.Position

/-! ## Lengths -/

theorem u16_pos (c : Char) : 0 < u16 c := by unfold u16; split <;> omega

theorem len8_nil : len8 [] = 0 := rfl
theorem len16_nil : len16 [] = 0 := rfl
theorem len8_cons (c : Char) (s : Text) : len8 (c :: s) = c.utf8Size + len8 s := rfl
theorem len16_cons (c : Char) (s : Text) : len16 (c :: s) = u16 c + len16 s := rfl

theorem len8_append (a b : Text) : len8 (a ++ b) = len8 a + len8 b := by
  simp only [len8, List.map_append, List.sum_append]

theorem len16_append (a b : Text) : len16 (a ++ b) = len16 a + len16 b := by
  simp only [len16, List.map_append, List.sum_append]

theorem length_le_len8 (s : Text) : s.length ≤ len8 s := by
  induction s with
  | nil => simp [len8]
  | cons c s ih => rw [len8_cons]; have := c.utf8Size_pos; simp only [List.length_cons]; omega

theorem length_le_len16 (s : Text) : s.length ≤ len16 s := by
  induction s with
  | nil => simp [len16]
  | cons c s ih => rw [len16_cons]; have := u16_pos c; simp only [List.length_cons]; omega

theorem len8_pos {s : Text} (h : s ≠ []) : 0 < len8 s := by
  have := length_le_len8 s; have := List.length_pos_iff.mpr h; omega

theorem len16_pos {s : Text} (h : s ≠ []) : 0 < len16 s := by
  have := length_le_len16 s; have := List.length_pos_iff.mpr h; omega

/-! ## Lines -/

theorem flatten_consLine (c : Char) (ls : List Text) : (consLine c ls).flatten = c :: ls.flatten := by
  cases ls <;> simp [consLine]

theorem flatten_lines (s : Text) : (lines s).flatten = s := by
  fun_induction lines s with
  | case1 => rfl
  | case2 cs ih => simp [ih]
  | case3 c cs _ _ ih => simp [ih]
  | case4 c cs _ _ ih => rw [flatten_consLine, ih]

theorem lines_ne_nil (s : Text) : lines s ≠ [] := by
  fun_cases lines s with
  | case1 => simp
  | case2 => simp
  | case3 => simp
  | case4 => cases lines ‹_› <;> simp [consLine]

/-- Only the last line may be empty. -/
def Full (ls : List Text) : Prop := ∀ l ∈ ls.dropLast, l ≠ []

theorem full_cons {l : Text} {ls : List Text} (hl : l ≠ []) (h : Full ls) : Full (l :: ls) := by
  cases ls with
  | nil => intro x hx; simp at hx
  | cons a as =>
    intro x hx
    rw [List.dropLast_cons_cons] at hx
    rcases List.mem_cons.mp hx with rfl | hx
    · exact hl
    · exact h x hx

theorem full_tail {l : Text} {ls : List Text} (h : Full (l :: ls)) : Full ls := by
  cases ls with
  | nil => intro x hx; simp at hx
  | cons a as =>
    intro x hx
    exact h x (by rw [List.dropLast_cons_cons]; exact List.mem_cons_of_mem _ hx)

theorem full_lines (s : Text) : Full (lines s) := by
  fun_induction lines s with
  | case1 => intro x hx; simp at hx
  | case2 cs ih => exact full_cons (by simp) ih
  | case3 c cs _ _ ih => exact full_cons (by simp) ih
  | case4 c cs _ _ ih =>
    revert ih
    cases lines cs with
    | nil => intro _ x hx; simp [consLine] at hx
    | cons l ls => intro ih; exact full_cons (by simp) (full_tail ih)

/-- A place in a text cut into lines: lines `A`, then `h` before the place and `t` behind it in its line, lines `B`. -/
structure At (ls : List Text) (A : List Text) (h t : Text) (B : List Text) : Prop where
  eq : ls = A ++ (h ++ t) :: B
  ne : B ≠ [] → t ≠ []

theorem exists_at (ls : List Text) (hne : ls ≠ []) (hf : Full ls) (pre post : Text)
    (e : ls.flatten = pre ++ post) :
    ∃ A h t B, At ls A h t B ∧ pre = A.flatten ++ h ∧ post = t ++ B.flatten := by
  induction ls generalizing pre with
  | nil => exact (hne rfl).elim
  | cons l ls ih =>
    by_cases hls : ls = []
    · subst hls
      refine ⟨[], pre, post, [], ⟨?_, ?_⟩, ?_, ?_⟩
      · simp at e; simp [e]
      · simp
      · simp
      · simp
    · rw [List.flatten_cons] at e
      rcases List.append_eq_append_iff.mp e with ⟨p', hp, hl⟩ | ⟨t, hl, hp⟩
      · obtain ⟨A, h, t, B, hat, h1, h2⟩ := ih hls (full_tail hf) p' hl
        refine ⟨l :: A, h, t, B, ⟨?_, hat.ne⟩, ?_, h2⟩
        · rw [hat.eq]; rfl
        · rw [hp, h1]; simp
      · by_cases ht : t = []
        · subst ht
          obtain ⟨A, h, t, B, hat, h1, h2⟩ := ih hls (full_tail hf) [] (by simpa using hp.symm)
          refine ⟨l :: A, h, t, B, ⟨?_, hat.ne⟩, ?_, ?_⟩
          · rw [hat.eq]; rfl
          · rw [List.flatten_cons, List.append_assoc, ← h1, hl]; simp
          · exact h2
        · exact ⟨[], pre, t, ls, ⟨by simp [hl], fun _ => ht⟩, by simp, hp⟩

theorem at_of (s pre post : Text) (e : s = pre ++ post) :
    ∃ A h t B, At (lines s) A h t B ∧ pre = A.flatten ++ h ∧ post = t ++ B.flatten :=
  exists_at _ (lines_ne_nil s) (full_lines s) pre post (by rw [flatten_lines]; exact e)

/-! ## Searching -/

theorem lineOf_at (len : Text → Nat) (hz : len [] = 0) (hap : ∀ a b, len (a ++ b) = len a + len b)
    (hp : ∀ a, a ≠ [] → 0 < len a) {A h t B} (hne : B ≠ [] → t ≠ []) :
    lineOf len (A ++ (h ++ t) :: B) (len A.flatten + len h) = A.length := by
  induction A with
  | nil =>
    cases B with
    | nil => simp [lineOf]
    | cons b B =>
      simp only [List.nil_append, List.flatten_nil, hz, Nat.zero_add, lineOf, List.length_nil]
      have := hp t (hne (by simp))
      rw [if_pos (by rw [hap]; omega)]
  | cons a A ih =>
    have hd : ∃ x xs, A ++ (h ++ t) :: B = x :: xs := by cases A <;> simp
    obtain ⟨x, xs, hx⟩ := hd
    rw [List.cons_append, hx, lineOf, if_neg (by rw [List.flatten_cons, hap]; omega), ← hx]
    · rw [show len (a :: A).flatten + len h - len a = len A.flatten + len h by rw [List.flatten_cons, hap]; omega, ih]
      rfl
    · intro h; cases h

theorem lineOf8 {ls A h t B} (hat : At ls A h t B) : lineOf len8 ls (len8 A.flatten + len8 h) = A.length := by
  rw [hat.eq]; exact lineOf_at len8 rfl len8_append (fun _ h => len8_pos h) hat.ne

theorem lineOf16 {ls A h t B} (hat : At ls A h t B) : lineOf len16 ls (len16 A.flatten + len16 h) = A.length := by
  rw [hat.eq]; exact lineOf_at len16 rfl len16_append (fun _ h => len16_pos h) hat.ne

theorem At.flatten {ls A h t B} (hat : At ls A h t B) : ls.flatten = A.flatten ++ (h ++ (t ++ B.flatten)) := by
  rw [hat.eq]; simp

theorem At.take {ls A h t B} (hat : At ls A h t B) : ls.take A.length = A := by
  rw [hat.eq]; simp

theorem At.drop {ls A h t B} (hat : At ls A h t B) : (ls.drop A.length).flatten = h ++ (t ++ B.flatten) := by
  rw [hat.eq]; simp

theorem At.start {ls A h t B} (hat : At ls A h t B) : At ls A [] (h ++ t) B :=
  ⟨hat.eq, fun hb e => hat.ne hb (List.append_eq_nil_iff.mp e).2⟩

theorem splitAtByte_append (a b : Text) : splitAtByte (a ++ b) (len8 a) = some (a, b) := by
  induction a with
  | nil => simp [len8, splitAtByte]
  | cons c a ih =>
    have hc := c.utf8Size_pos
    obtain ⟨n, hn⟩ : ∃ n, c.utf8Size + len8 a = n + 1 := ⟨c.utf8Size + len8 a - 1, by omega⟩
    rw [len8_cons, List.cons_append, hn, splitAtByte, if_neg (by omega)]
    rw [show n + 1 - c.utf8Size = len8 a by omega, ih]
    rfl

theorem splitAtByte_some {s a b : Text} {n : Nat} (h : splitAtByte s n = some (a, b)) : s = a ++ b ∧ n = len8 a := by
  induction s generalizing n a with
  | nil =>
    cases n with
    | zero => simp [splitAtByte] at h; obtain ⟨rfl, rfl⟩ := h; simp [len8]
    | succ n => simp [splitAtByte] at h
  | cons c s ih =>
    cases n with
    | zero => simp only [splitAtByte, Option.some.injEq, Prod.mk.injEq] at h; obtain ⟨rfl, rfl⟩ := h; simp [len8]
    | succ n =>
      rw [splitAtByte] at h
      split at h
      · cases h
      · rename_i hn
        obtain ⟨⟨a', b'⟩, h1, h2⟩ := Option.map_eq_some_iff.mp h
        simp only [Prod.mk.injEq] at h2
        obtain ⟨rfl, rfl⟩ := h2
        obtain ⟨e1, e2⟩ := ih h1
        refine ⟨by rw [e1]; rfl, ?_⟩
        rw [len8_cons]; omega

theorem byteToLine_at {ls A h t B} (hat : At ls A h t B) :
    byteToLine ls (len8 A.flatten + len8 h) = some A.length := by
  rw [byteToLine, if_pos, lineOf8 hat]
  rw [hat.flatten, len8_append, len8_append]; omega

theorem lineToByte_at {ls A h t B} (hat : At ls A h t B) : lineToByte ls A.length = some (len8 A.flatten) := by
  rw [lineToByte, hat.take, if_pos]
  rw [hat.eq]; simp

theorem lineHead_at {ls A h t B} (hat : At ls A h t B) : lineHead ls (len8 A.flatten + len8 h) = some h := by
  simp only [lineHead, byteToLine_at hat, lineToByte_at hat, hat.drop, Option.bind_eq_bind, Option.bind_some]
  rw [show len8 A.flatten + len8 h - len8 A.flatten = len8 h by omega, splitAtByte_append]
  rfl

theorem byteToUtf16_at {ls A h t B} (hat : At ls A h t B) :
    byteToUtf16 ls (len8 A.flatten + len8 h) = some (len16 A.flatten + len16 h) := by
  simp only [byteToUtf16, byteToLine_at hat, lineHead_at hat, Option.bind_eq_bind, Option.bind_some, hat.take]
  rfl

theorem byteToUtf16_start {ls A h t B} (hat : At ls A h t B) :
    byteToUtf16 ls (len8 A.flatten) = some (len16 A.flatten) := by
  have := byteToUtf16_at hat.start
  simpa only [len8_nil, len16_nil, Nat.add_zero] using this

theorem walk_append (h r : Text) (b k : Nat) : walk (k + len16 h) (h ++ r) b k = some (b + len8 h) := by
  induction h generalizing b k with
  | nil => cases r <;> simp [walk, len16, len8]
  | cons c h ih =>
    have := u16_pos c
    rw [List.cons_append, walk, if_neg (by rw [len16_cons]; omega), len16_cons, len8_cons, ← Nat.add_assoc, ih]
    congr 1; omega

theorem utf16ToByte_at {ls A h t B} (hat : At ls A h t B) :
    utf16ToByte ls (len16 A.flatten + len16 h) = some (len8 A.flatten + len8 h) := by
  simp only [utf16ToByte, lineOf16 hat, hat.take, hat.drop]
  exact walk_append ..

/-! ## Conversions -/

/-- What the server reports as column: UTF-16 code units, or characters. -/
def col : Encoding → Text → Nat
  | .utf16, s => len16 s
  | .utf8, s => s.length

theorem toLsp_at (enc : Encoding) {s A h t B} (hat : At (lines s) A h t B) :
    toLsp enc s (len8 A.flatten + len8 h) = some (A.length, col enc h) := by
  have hs : len8 s = len8 A.flatten + len8 h + len8 (t ++ B.flatten) := by
    rw [← flatten_lines s, hat.flatten, len8_append, len8_append]; omega
  simp only [toLsp]
  rw [if_neg (by omega)]
  simp only [byteToLine_at hat, byteToColumn, lineHead_at hat, Option.bind_eq_bind, Option.bind_some, Option.map_some]
  cases enc with
  | utf8 => rfl
  | utf16 =>
    simp only [byteToUtf16_at hat, lineToByte_at hat, byteToUtf16_start hat, Option.bind_some]
    simp only [col, Option.pure_def, Option.some.injEq, Prod.mk.injEq, true_and]
    omega

theorem toTypst_at (enc : Encoding) {s A h t B} (hat : At (lines s) A h t B) :
    toTypst enc s A.length (col enc h) = some (len8 A.flatten + len8 h) := by
  have hs : len8 s = len8 A.flatten + len8 h + len8 (t ++ B.flatten) := by
    rw [← flatten_lines s, hat.flatten, len8_append, len8_append]; omega
  have hl : (lines s).length = A.length + 1 + B.length := by rw [hat.eq]; simp; omega
  simp only [toTypst]
  rw [if_neg (by omega)]
  split
  · rename_i hc
    have hB : B = [] := List.eq_nil_of_length_eq_zero (by omega)
    subst hB
    rw [hat.drop] at hc
    have ht : t = [] := by
      cases enc with
      | utf16 =>
        simp only [lastLen, col, len16_append] at hc
        have := length_le_len16 t
        exact List.eq_nil_of_length_eq_zero (by omega)
      | utf8 =>
        simp only [lastLen, col, len8_append] at hc
        have := length_le_len8 t
        have := length_le_len8 h
        exact List.eq_nil_of_length_eq_zero (by omega)
    subst ht
    rw [hs]; simp [len8]
  · cases enc with
    | utf8 =>
      have : (lines s)[A.length]? = some (h ++ t) := by rw [hat.eq]; simp
      simp only [lineColumnToByte, this, Option.map_some, hat.take, col, List.take_left']
    | utf16 =>
      simp only [lineToByte_at hat, byteToUtf16_start hat, Option.bind_eq_bind, Option.bind_some, col]
      exact utf16ToByte_at hat

theorem col_append (enc : Encoding) (a b : Text) : col enc (a ++ b) = col enc a + col enc b := by
  cases enc
  · exact len16_append a b
  · simp [col]

theorem col_pos (enc : Encoding) {a : Text} (h : a ≠ []) : 0 < col enc a := by
  cases enc
  · exact len16_pos h
  · exact List.length_pos_iff.mpr h

theorem walk_some {u : Nat} {cs : Text} {b k b' : Nat} (h : walk u cs b k = some b') :
    ∃ p q, cs = p ++ q ∧ b' = b + len8 p := by
  induction cs generalizing b k with
  | nil =>
    rw [walk] at h
    split at h
    · exact ⟨[], [], rfl, by injection h with h; rw [len8_nil]; omega⟩
    · cases h
  | cons c cs ih =>
    rw [walk] at h
    split at h
    · exact ⟨[], c :: cs, rfl, by injection h with h; rw [len8_nil]; omega⟩
    · obtain ⟨p, q, e, e'⟩ := ih h
      exact ⟨c :: p, q, by rw [e]; rfl, by rw [len8_cons]; omega⟩

theorem walk_none {u : Nat} {cs : Text} {b k : Nat} (h : k + len16 cs < u) : walk u cs b k = none := by
  induction cs generalizing b k with
  | nil => rw [len16_nil] at h; rw [walk, if_neg (by omega)]
  | cons c cs ih => rw [len16_cons] at h; rw [walk, if_neg (by omega), ih (by omega)]

theorem take_drop (ls : List Text) (i : Nat) : (ls.take i).flatten ++ (ls.drop i).flatten = ls.flatten := by
  rw [← List.flatten_append, List.take_append_drop]

/-! ## What the client means -/

theorem lines_body (body rest : Text) (h : ∀ c ∈ body, isNewline c = false) :
    ∃ l ls, lines rest = l :: ls ∧ lines (body ++ rest) = (body ++ l) :: ls := by
  induction body with
  | nil =>
    cases e : lines rest with
    | nil => exact (lines_ne_nil rest e).elim
    | cons l ls => exact ⟨l, ls, rfl, e⟩
  | cons c body ih =>
    obtain ⟨l, ls, h1, h2⟩ := ih fun c hc => h c (List.mem_cons_of_mem _ hc)
    refine ⟨l, ls, h1, ?_⟩
    have hc := h c (List.mem_cons_self ..)
    rw [List.cons_append, lines, if_neg (by simp [hc]), h2]
    · rfl
    · rintro cs' rfl; simp [isNewline] at hc

theorem lines_lf (rest : Text) : lines ('\n' :: rest) = ['\n'] :: lines rest := by
  rw [lines, if_pos (by decide)]
  intro _ h; simp at h

theorem lines_cr (rest : Text) (h : ∀ t, rest ≠ '\n' :: t) : lines ('\r' :: rest) = ['\r'] :: lines rest := by
  rw [lines, if_pos (by decide)]
  intro t _ e; exact h t e

theorem noEol_newline {s body : Text} (hs : ∀ c ∈ s, isNewline c = true → c = '\n' ∨ c = '\r')
    (hb : ∀ c ∈ body, c ∈ s) (h : noEol body) : ∀ c ∈ body, isNewline c = false := by
  intro c hc
  cases e : isNewline c with
  | false => rfl
  | true =>
    rcases hs c (hb c hc) e with e | e
    · exact ((h c hc).1 e).elim
    · exact ((h c hc).2 e).elim

theorem at_shift {ls A h t B} (l : Text) (hat : At ls A h t B) : At (l :: ls) (l :: A) h t B :=
  ⟨by rw [hat.eq]; rfl, hat.ne⟩

theorem units_eq_col {enc : Encoding} {s : Text} (h : enc = .utf8 → ∀ c ∈ s, c.utf8Size = 1) :
    units enc s = col enc s := by
  cases enc with
  | utf16 => rfl
  | utf8 =>
    replace h := h rfl
    simp only [units, col]
    induction s with
    | nil => rfl
    | cons c s ih =>
      rw [len8_cons, h c (List.mem_cons_self ..), ih fun c hc => h c (List.mem_cons_of_mem _ hc)]
      simp only [List.length_cons]; omega

theorem pos_at {enc : Encoding} {s post : Text} {line ch : Nat} (h : Pos enc s line ch post) (hs : Plain enc s) :
    ∃ A h t B, At (lines s) A h t B ∧ A.length = line ∧ col enc h = ch ∧ post = t ++ B.flatten := by
  induction h with
  | here cur rest h =>
    obtain ⟨l, ls, h1, h2⟩ := lines_body cur rest
      (noEol_newline hs.1 (fun c hc => List.mem_append_left _ hc) h)
    refine ⟨[], cur, l, ls, ⟨h2, ?_⟩, rfl, ?_, ?_⟩
    · intro hne
      have := full_lines rest
      rw [h1] at this
      cases ls with
      | nil => exact (hne rfl).elim
      | cons x xs => exact this l (by rw [List.dropLast_cons_cons]; exact List.mem_cons_self ..)
    · exact (units_eq_col fun he c hc => hs.2 he c (List.mem_append_left _ hc)).symm
    · rw [← flatten_lines rest, h1]; rfl
  | lf body rest line ch post h _ ih =>
    obtain ⟨A, hd, t, B, hat, e1, e2, e3⟩ := ih
      ⟨fun c hc => hs.1 c (List.mem_append_right _ (List.mem_cons_of_mem _ hc)),
        fun he c hc => hs.2 he c (List.mem_append_right _ (List.mem_cons_of_mem _ hc))⟩
    obtain ⟨l, ls, h1, h2⟩ := lines_body body ('\n' :: rest)
      (noEol_newline hs.1 (fun c hc => List.mem_append_left _ hc) h)
    rw [lines_lf] at h1
    injection h1 with h1 h1'
    subst h1 h1'
    rw [h2]
    exact ⟨_ :: A, hd, t, B, at_shift _ hat, by simp [e1], e2, e3⟩
  | crlf body rest line ch post h _ ih =>
    obtain ⟨A, hd, t, B, hat, e1, e2, e3⟩ := ih
      ⟨fun c hc => hs.1 c (List.mem_append_right _ (List.mem_cons_of_mem _ (List.mem_cons_of_mem _ hc))),
        fun he c hc => hs.2 he c (List.mem_append_right _ (List.mem_cons_of_mem _ (List.mem_cons_of_mem _ hc)))⟩
    obtain ⟨l, ls, h1, h2⟩ := lines_body body ('\r' :: '\n' :: rest)
      (noEol_newline hs.1 (fun c hc => List.mem_append_left _ hc) h)
    rw [lines] at h1
    injection h1 with h1 h1'
    subst h1 h1'
    rw [h2]
    exact ⟨_ :: A, hd, t, B, at_shift _ hat, by simp [e1], e2, e3⟩
  | cr body rest line ch post h hr _ ih =>
    obtain ⟨A, hd, t, B, hat, e1, e2, e3⟩ := ih
      ⟨fun c hc => hs.1 c (List.mem_append_right _ (List.mem_cons_of_mem _ hc)),
        fun he c hc => hs.2 he c (List.mem_append_right _ (List.mem_cons_of_mem _ hc))⟩
    obtain ⟨l, ls, h1, h2⟩ := lines_body body ('\r' :: rest)
      (noEol_newline hs.1 (fun c hc => List.mem_append_left _ hc) h)
    rw [lines_cr _ hr] at h1
    injection h1 with h1 h1'
    subst h1 h1'
    rw [h2]
    exact ⟨_ :: A, hd, t, B, at_shift _ hat, by simp [e1], e2, e3⟩

/-- The server puts a client's position where the client has it. -/
theorem pos_offset {enc : Encoding} {s pre post : Text} {line ch : Nat} (h : Pos enc s line ch post)
    (hs : Plain enc s) (e : s = pre ++ post) :
    toTypst enc s line ch = some (len8 pre) ∧ toLsp enc s (len8 pre) = some (line, ch) := by
  obtain ⟨A, hd, t, B, hat, rfl, rfl, e3⟩ := pos_at h hs
  have he : pre = A.flatten ++ hd := by
    have h1 := hat.flatten
    rw [flatten_lines, ← e3, e, ← List.append_assoc] at h1
    exact List.append_cancel_right h1
  rw [he, len8_append]
  exact ⟨toTypst_at enc hat, toLsp_at enc hat⟩

theorem units_append (enc : Encoding) (a b : Text) : units enc (a ++ b) = units enc a + units enc b := by
  cases enc
  · exact len16_append a b
  · exact len8_append a b

theorem pos_cons {enc : Encoding} {s post : Text} {line ch : Nat} (h : Pos enc s line ch post) (c : Char)
    (hc : c ≠ '\n' ∧ c ≠ '\r') : ∃ ch', Pos enc (c :: s) line ch' post := by
  have hb : ∀ body, noEol body → noEol (c :: body) := by
    intro body h x hx
    rcases List.mem_cons.mp hx with rfl | hx
    · exact hc
    · exact h x hx
  cases h with
  | here cur _ h => exact ⟨_, Pos.here (c :: cur) _ (hb _ h)⟩
  | lf body rest line ch post h hp => exact ⟨_, Pos.lf (c :: body) _ _ _ _ (hb _ h) hp⟩
  | crlf body rest line ch post h hp => exact ⟨_, Pos.crlf (c :: body) _ _ _ _ (hb _ h) hp⟩
  | cr body rest line ch post h hr hp => exact ⟨_, Pos.cr (c :: body) _ _ _ _ (hb _ h) hr hp⟩

theorem exists_pos (enc : Encoding) (pre post : Text)
    (hsp : ¬ (pre.getLast? = some '\r' ∧ post.head? = some '\n')) :
    ∃ line ch, Pos enc (pre ++ post) line ch post := by
  generalize hn : pre.length = n
  induction n using Nat.strongRecOn generalizing pre with
  | _ n ih =>
    cases pre with
    | nil => exact ⟨0, _, Pos.here [] post (by intro c hc; cases hc)⟩
    | cons c pre =>
      have hstep : ∀ p q : Text, c :: pre = p ++ q → p ≠ [] → ∃ line ch, Pos enc (q ++ post) line ch post := by
        intro p q e hp
        refine ih q.length ?_ q ?_ rfl
        · have := congrArg List.length e
          have := List.length_pos_iff.mpr hp
          simp at *; omega
        · intro h
          refine hsp ⟨?_, h.2⟩
          rw [e, List.getLast?_append, h.1]; rfl
      by_cases h1 : c = '\n'
      · subst h1
        obtain ⟨line, ch, h⟩ := hstep ['\n'] pre rfl (by simp)
        exact ⟨_, _, Pos.lf [] _ _ _ _ (by intro c hc; cases hc) h⟩
      · by_cases h2 : c = '\r'
        · subst h2
          by_cases h3 : ∃ t, pre = '\n' :: t
          · obtain ⟨t, rfl⟩ := h3
            obtain ⟨line, ch, h⟩ := hstep ['\r', '\n'] t rfl (by simp)
            exact ⟨_, _, Pos.crlf [] _ _ _ _ (by intro c hc; cases hc) h⟩
          · obtain ⟨line, ch, h⟩ := hstep ['\r'] pre rfl (by simp)
            refine ⟨_, _, Pos.cr [] _ _ _ _ (by intro c hc; cases hc) ?_ h⟩
            intro t e
            cases pre with
            | nil =>
              apply hsp
              simp at e
              simp [e]
            | cons d pre =>
              simp at e
              exact h3 ⟨pre, by rw [e.1]⟩
        · obtain ⟨line, ch, h⟩ := hstep [c] pre rfl (by simp)
          obtain ⟨ch', h'⟩ := pos_cons h c ⟨h1, h2⟩
          exact ⟨_, _, h'⟩

theorem replaceRange_append (pre mid post w : Text) :
    replaceRange (pre ++ mid ++ post) (len8 pre) (len8 pre + len8 mid) w = some (pre ++ w ++ post) := by
  rw [replaceRange, if_pos (by omega), List.append_assoc, splitAtByte_append]
  simp only [Option.bind_eq_bind, Option.bind_some]
  rw [show len8 pre + len8 mid - len8 pre = len8 mid by omega, splitAtByte_append]
  rfl

end Tinymist.Position
