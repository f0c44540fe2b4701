import Verif.Spec.Mirror
import Verif.Lemmas.Framing
import Verif.Props.Framing

/-!
# Reading on the level of buffers is reading of bytes
-/

namespace Tinymist.Mirror

/-- What is read until the input ends for the first time. -/
def visible (s : Buffered) : List Nat := s.buf ++ (s.chunks.takeWhile (fun c => !c.isEmpty)).flatten

/-- An input is read in order. -/
structure Law {σ : Type} (io : Input σ) (vis : σ → List Nat) : Prop where
  left : ∀ s, (vis s).length ≤ io.left s
  fill : ∀ s, ∃ t, vis s = (io.fill s).1 ++ t ∧ ((io.fill s).1 = [] → t = []) ∧
    ((io.fill s).1 ≠ [] → ∀ k ≤ (io.fill s).1.length, vis (io.consume k (io.fill s).2) = (vis s).drop k)
  read : ∀ s n, 0 < n → ∃ t, vis s = (io.read n s).1 ++ t ∧ (io.read n s).1.length ≤ n ∧ ((io.read n s).1 = [] → t = []) ∧
    ((io.read n s).1 ≠ [] → vis (io.read n s).2 = t)

/-- What is read is recorded. -/
structure Logged {σ : Type} (io : Input σ) (log : σ → List Nat) : Prop where
  consume : ∀ s k, k ≤ (io.fill s).1.length → log (io.consume k (io.fill s).2) = log s ++ (io.fill s).1.take k
  read : ∀ s n, log (io.read n s).2 = log s ++ (io.read n s).1

theorem sysRead_visible {cap : Nat} (hc : 0 < cap) (cs : List (List Nat)) :
    ∃ t, (cs.takeWhile (fun c => !c.isEmpty)).flatten = (sysRead cap cs).1 ++ t ∧ (sysRead cap cs).1.length ≤ cap ∧ ((sysRead cap cs).1 = [] → t = []) ∧
      ((sysRead cap cs).1 ≠ [] → ((sysRead cap cs).2.takeWhile (fun c => !c.isEmpty)).flatten = t) := by
  cases cs with
  | nil => exact ⟨[], rfl, Nat.zero_le _, fun _ => rfl, fun h => absurd rfl h⟩
  | cons c cs =>
    rw [show sysRead cap (c :: cs) = if c.length ≤ cap then (c, cs) else (c.take cap, c.drop cap :: cs) from rfl]
    cases c with
    | nil =>
      rw [if_pos (by exact Nat.zero_le _)]
      exact ⟨[], rfl, Nat.zero_le _, fun _ => rfl, fun h => absurd rfl h⟩
    | cons b bs =>
      split
      · rename_i h
        refine ⟨(cs.takeWhile (fun c => !c.isEmpty)).flatten, ?_, h, fun h => (nomatch h), fun _ => rfl⟩
        simp
      · rename_i h
        have hd : (b :: bs).drop cap ≠ [] := by
          rw [Ne, List.drop_eq_nil_iff]
          exact h
        obtain ⟨x, xs, hx⟩ := List.exists_cons_of_ne_nil hd
        refine ⟨(b :: bs).drop cap ++ (cs.takeWhile (fun c => !c.isEmpty)).flatten, ?_, ?_, ?_, ?_⟩
        · rw [← List.append_assoc, List.take_append_drop]
          simp
        · rw [List.length_take]
          omega
        · intro h'
          have := congrArg List.length h'
          rw [List.length_take, List.length_nil] at this
          omega
        · intro _
          rw [hx]
          simp

theorem fill_full {cap : Nat} {s : Buffered} (h : s.buf ≠ []) : fill cap s = (s.buf, s) := by
  unfold fill
  rw [if_neg h]

theorem fill_law {cap : Nat} (hc : 0 < cap) (s : Buffered) : ∃ t, visible s = (fill cap s).1 ++ t ∧ ((fill cap s).1 = [] → t = []) ∧
    ((fill cap s).1 ≠ [] → visible (fill cap s).2 = visible s) ∧ (fill cap s).2.buf = (fill cap s).1 := by
  by_cases h : s.buf = []
  · obtain ⟨t, h1, _, h3, h4⟩ := sysRead_visible hc s.chunks
    unfold fill
    rw [if_pos h]
    refine ⟨t, ?_, h3, ?_, rfl⟩
    · unfold visible
      rw [h, List.nil_append, h1]
    · intro hne
      unfold visible
      simp only
      rw [h4 hne, h, List.nil_append, h1]
  · rw [fill_full h]
    exact ⟨_, rfl, fun h' => absurd h' h, fun _ => rfl, rfl⟩

theorem consume_visible (s : Buffered) {k : Nat} (h : k ≤ s.buf.length) : visible (consume k s) = (visible s).drop k := by
  unfold visible consume
  simp only
  rw [List.drop_append_of_le_length h]

theorem read_law {cap : Nat} (hc : 0 < cap) (s : Buffered) (n : Nat) (hn : 0 < n) : ∃ t, visible s = (read cap n s).1 ++ t ∧
    (read cap n s).1.length ≤ n ∧ ((read cap n s).1 = [] → t = []) ∧ ((read cap n s).1 ≠ [] → visible (read cap n s).2 = t) := by
  unfold read
  by_cases h : s.buf = [] ∧ cap ≤ n
  · rw [if_pos h]
    obtain ⟨t, h1, h2, h3, h4⟩ := sysRead_visible hn s.chunks
    refine ⟨t, ?_, h2, h3, ?_⟩
    · unfold visible
      rw [h.1, List.nil_append, h1]
    · intro hne
      unfold visible
      simp only
      rw [h4 hne, List.nil_append]
  · rw [if_neg h]
    obtain ⟨t, h1, h2, h3, h4⟩ := fill_law hc s
    refine ⟨(fill cap s).1.drop n ++ t, ?_, ?_, ?_, ?_⟩
    · rw [← List.append_assoc, List.take_append_drop, h1]
    · simp only [List.length_take]
      omega
    · intro h'
      have : (fill cap s).1 = [] := by
        cases hf : (fill cap s).1 with
        | nil => rfl
        | cons a b =>
          rw [hf] at h'
          obtain ⟨m, rfl⟩ := Nat.exists_eq_succ_of_ne_zero (Nat.pos_iff_ne_zero.1 hn)
          simp at h'
      rw [this, h2 this]
      simp
    · intro hne
      have hne' : (fill cap s).1 ≠ [] := by
        intro h'
        rw [h'] at hne
        simp at hne
      by_cases hl : n ≤ (fill cap s).1.length
      · simp only
        rw [consume_visible _ (by rw [h4]; exact hl), h3 hne', h1, List.drop_append_of_le_length hl]
      · have e : consume n (fill cap s).2 = consume (fill cap s).1.length (fill cap s).2 := by
          unfold consume
          rw [h4, List.drop_eq_nil_of_le (by omega), List.drop_length]
        simp only
        rw [e, consume_visible _ (by rw [h4]; exact Nat.le_refl _), h3 hne', h1, List.drop_left, List.drop_eq_nil_of_le (by omega), List.nil_append]

theorem visible_left (s : Buffered) : (visible s).length ≤ s.buf.length + s.chunks.flatten.length := by
  have : ∀ cs : List (List Nat), (cs.takeWhile (fun c => !c.isEmpty)).flatten.length ≤ cs.flatten.length := by
    intro cs
    induction cs with
    | nil => exact Nat.le_refl _
    | cons c cs ih =>
      rw [List.takeWhile_cons]
      split
      · simp only [List.flatten_cons, List.length_append]
        omega
      · exact Nat.zero_le _
  unfold visible
  rw [List.length_append]
  have := this s.chunks
  omega

theorem plain_law {cap : Nat} (hc : 0 < cap) : Law (plain cap) visible where
  left := visible_left
  fill s := by
    obtain ⟨t, h1, h2, h3, h4⟩ := fill_law hc s
    refine ⟨t, h1, h2, fun hne k hk => ?_⟩
    have := consume_visible (fill cap s).2 (k := k) (by rw [h4]; exact hk)
    exact this.trans (by rw [h3 hne])
  read s n hn := read_law hc s n hn

theorem mirrorConsume_eq {cap : Nat} (s : Mirrored) (k : Nat) (h : (fill cap s.inner).1 ≠ []) :
    mirrorConsume cap k (mirrorFill cap s).2 = ⟨consume k (fill cap s.inner).2, s.mirror ++ (fill cap s.inner).1.take k⟩ := by
  have hb : (fill cap s.inner).2.buf = (fill cap s.inner).1 := by
    unfold fill
    split <;> rfl
  unfold mirrorConsume mirrorFill
  simp only
  rw [fill_full (by rw [hb]; exact h), hb]

theorem mirrored_law {cap : Nat} (hc : 0 < cap) : Law (mirrored cap) (fun s => visible s.inner) where
  left s := visible_left s.inner
  fill s := by
    obtain ⟨t, h1, h2, h3, h4⟩ := fill_law hc s.inner
    refine ⟨t, h1, h2, fun hne k hk => ?_⟩
    have := consume_visible (fill cap s.inner).2 (k := k) (by rw [h4]; exact hk)
    have e : (mirrored cap).consume k ((mirrored cap).fill s).2 = mirrorConsume cap k (mirrorFill cap s).2 := rfl
    rw [e, mirrorConsume_eq s k hne]
    exact this.trans (by rw [h3 hne])
  read s n hn := read_law hc s.inner n hn

theorem mirrored_logged (cap : Nat) : Logged (mirrored cap) (fun s => s.mirror) where
  consume s k hk := by
    by_cases h : (fill cap s.inner).1 = []
    · have hk' : k = 0 := by
        have : k ≤ (fill cap s.inner).1.length := hk
        rw [h] at this
        exact Nat.le_zero.1 this
      subst hk'
      show s.mirror ++ List.take 0 _ = s.mirror ++ List.take 0 _
      rfl
    · have e : (mirrored cap).consume k ((mirrored cap).fill s).2 = mirrorConsume cap k (mirrorFill cap s).2 := rfl
      rw [e, mirrorConsume_eq s k h]
      rfl
  read s n := rfl

/-! ## Lines -/

theorem lineLen_some : ∀ {l : List Nat} {k : Nat}, lineLen l = some k → ∃ xs ys, l = xs ++ 10 :: ys ∧ 10 ∉ xs ∧ k = xs.length + 1
  | [], _, h => nomatch h
  | b :: bs, k, h => by
    unfold lineLen at h
    split at h
    · rename_i hb
      subst hb
      cases h
      exact ⟨[], bs, rfl, nofun, rfl⟩
    · rename_i hb
      obtain ⟨k', hk', rfl⟩ := Option.map_eq_some_iff.1 h
      obtain ⟨xs, ys, rfl, hx, rfl⟩ := lineLen_some hk'
      refine ⟨b :: xs, ys, rfl, ?_, rfl⟩
      intro hm
      rcases List.mem_cons.1 hm with e | e
      · exact hb e.symm
      · exact hx e

theorem lineLen_none : ∀ {l : List Nat}, lineLen l = none → 10 ∉ l
  | [], _ => nofun
  | b :: bs, h => by
    unfold lineLen at h
    split at h
    · cases h
    · rename_i hb
      intro hm
      rcases List.mem_cons.1 hm with e | e
      · exact hb e.symm
      · exact lineLen_none (Option.map_eq_none_iff.1 h) e

theorem readLine_skip : ∀ (xs t : List Nat), 10 ∉ xs → Framing.readLine (xs ++ t) = (xs ++ (Framing.readLine t).1, (Framing.readLine t).2)
  | [], _, _ => rfl
  | x :: xs, t, h => by
    have hx : x ≠ 10 := fun e => h (by rw [e]; exact List.mem_cons_self ..)
    rw [List.cons_append, Framing.readLine, if_neg hx, readLine_skip xs t fun hm => h (List.mem_cons_of_mem _ hm)]
    rfl

theorem readLineLoop_law {σ : Type} {io : Input σ} {vis : σ → List Nat} (L : Law io vis) : ∀ (n : Nat) (s : σ), (vis s).length < n →
    (readLineLoop io n s).1 = (Framing.readLine (vis s)).1 ∧
    (10 ∈ (readLineLoop io n s).1 → vis (readLineLoop io n s).2 = (Framing.readLine (vis s)).2) ∧
    (10 ∉ (readLineLoop io n s).1 → (readLineLoop io n s).1 = vis s) ∧
    ∀ log, Logged io log → log (readLineLoop io n s).2 = log s ++ (readLineLoop io n s).1
  | 0, s, h => absurd h (Nat.not_lt_zero _)
  | n + 1, s, h => by
    obtain ⟨t, h1, h2, h3⟩ := L.fill s
    unfold readLineLoop
    simp only
    cases hl : lineLen (io.fill s).1 with
    | some k =>
      obtain ⟨xs, ys, e, hx, rfl⟩ := lineLen_some hl
      have hne : (io.fill s).1 ≠ [] := by
        rw [e]
        simp
      have hk : xs.length + 1 ≤ (io.fill s).1.length := by
        rw [e]
        simp
      have et : (io.fill s).1.take (xs.length + 1) = xs ++ [10] := by
        rw [e, List.take_append]
        simp [List.take_of_length_le]
      have er : Framing.readLine (vis s) = (xs ++ [10], ys ++ t) := by
        rw [h1, e, List.append_assoc, List.cons_append]
        exact Framing.readLine_append xs (ys ++ t) hx
      simp only
      refine ⟨by rw [et, er], fun _ => ?_, fun hn => ?_, fun log Lg => Lg.consume s _ hk⟩
      · rw [h3 hne _ hk, er, h1, e]
        simp [List.drop_append]
      · rw [et] at hn
        exact absurd (List.mem_append_right _ (List.mem_singleton_self _)) hn
    | none =>
      have hx := lineLen_none hl
      simp only
      by_cases hne : (io.fill s).1 = []
      · rw [if_pos hne]
        have hv : vis s = [] := by rw [h1, hne, h2 hne]; rfl
        refine ⟨by rw [hv]; rfl, fun hm => (nomatch hm), fun _ => hv.symm, fun log Lg => ?_⟩
        rw [Lg.consume s 0 (Nat.zero_le _)]
        simp
      · rw [if_neg hne]
        have hv : vis (io.consume (io.fill s).1.length (io.fill s).2) = t := by
          rw [h3 hne _ (Nat.le_refl _), h1, List.drop_left]
        have hlen : t.length < n := by
          have := List.length_pos_iff.2 hne
          rw [h1, List.length_append] at h
          omega
        obtain ⟨i1, i2, i3, i4⟩ := readLineLoop_law L n (io.consume (io.fill s).1.length (io.fill s).2) (by rw [hv]; exact hlen)
        rw [hv] at i1 i2 i3
        have er := readLine_skip (io.fill s).1 t hx
        simp only
        refine ⟨by rw [h1, er, i1], fun hm => ?_, fun hn => ?_, fun log Lg => ?_⟩
        · rw [h1, er]
          refine i2 ?_
          rcases List.mem_append.1 hm with e | e
          · exact absurd e hx
          · exact e
        · rw [i3 fun e => hn (List.mem_append_right _ e)]
          exact h1.symm
        · rw [i4 log Lg, Lg.consume s _ (Nat.le_refl _), List.take_length, List.append_assoc]

theorem readLine_law {σ : Type} {io : Input σ} {vis : σ → List Nat} (L : Law io vis) (s : σ) :
    (readLine io s).1 = (Framing.readLine (vis s)).1 ∧
    (10 ∈ (readLine io s).1 → vis (readLine io s).2 = (Framing.readLine (vis s)).2) ∧
    (10 ∉ (readLine io s).1 → (readLine io s).1 = vis s) ∧
    ∀ log, Logged io log → log (readLine io s).2 = log s ++ (readLine io s).1 :=
  readLineLoop_law L _ s (Nat.lt_succ_of_le (L.left s))

/-! ## Bodies -/

theorem readExactLoop_law {σ : Type} {io : Input σ} {vis : σ → List Nat} (L : Law io vis) : ∀ (fuel n : Nat) (s : σ), (vis s).length < fuel →
    (n ≤ (vis s).length → (readExactLoop io fuel n s).1 = some ((vis s).take n) ∧ vis (readExactLoop io fuel n s).2 = (vis s).drop n ∧
      ∀ log, Logged io log → log (readExactLoop io fuel n s).2 = log s ++ (vis s).take n) ∧
    ((vis s).length < n → (readExactLoop io fuel n s).1 = none ∧ ∀ log, Logged io log → log (readExactLoop io fuel n s).2 = log s ++ vis s)
  | _, 0, s, h => by
    unfold readExactLoop
    exact ⟨fun _ => ⟨by simp, by simp, fun _ _ => by simp⟩, fun h' => absurd h' (Nat.not_lt_zero _)⟩
  | 0, _ + 1, s, h => absurd h (Nat.not_lt_zero _)
  | fuel + 1, n + 1, s, h => by
    obtain ⟨t, h1, h2, h3, h4⟩ := L.read s (n + 1) (Nat.succ_pos _)
    unfold readExactLoop
    simp only
    by_cases hne : (io.read (n + 1) s).1 = []
    · rw [if_pos hne]
      have hv : vis s = [] := by rw [h1, hne, h3 hne]; rfl
      refine ⟨fun h' => ?_, fun _ => ⟨rfl, fun log Lg => ?_⟩⟩
      · rw [hv] at h'
        exact absurd h' (Nat.not_succ_le_zero _)
      · rw [Lg.read, hne, hv]
    · rw [if_neg hne]
      have hp := List.length_pos_iff.2 hne
      obtain ⟨i1, i2⟩ := readExactLoop_law L fuel (n + 1 - (io.read (n + 1) s).1.length) (io.read (n + 1) s).2
        (by rw [h4 hne]; rw [h1, List.length_append] at h; omega)
      rw [h4 hne] at i1 i2
      have hlen : (vis s).length = (io.read (n + 1) s).1.length + t.length := by
        have := congrArg List.length h1
        rwa [List.length_append] at this
      refine ⟨fun h' => ?_, fun h' => ?_⟩
      · obtain ⟨j1, j2, j3⟩ := i1 (by omega)
        have et : (vis s).take (n + 1) = (io.read (n + 1) s).1 ++ t.take (n + 1 - (io.read (n + 1) s).1.length) := by
          have := congrArg (List.take (n + 1)) h1
          rw [this, List.take_append, List.take_of_length_le h2]
        refine ⟨?_, ?_, fun log Lg => ?_⟩
        · rw [j1, et]
          rfl
        · rw [j2]
          have := congrArg (List.drop (n + 1)) h1
          rw [this, List.drop_append, List.drop_eq_nil_of_le h2, List.nil_append]
        · rw [j3 log Lg, Lg.read, et, List.append_assoc]
      · obtain ⟨j1, j2⟩ := i2 (by omega)
        refine ⟨by rw [j1]; rfl, fun log Lg => ?_⟩
        rw [j2 log Lg, Lg.read, List.append_assoc, ← h1]

theorem readExact_law {σ : Type} {io : Input σ} {vis : σ → List Nat} (L : Law io vis) (n : Nat) (s : σ) :
    (n ≤ (vis s).length → (readExact io n s).1 = some ((vis s).take n) ∧ vis (readExact io n s).2 = (vis s).drop n ∧
      ∀ log, Logged io log → log (readExact io n s).2 = log s ++ (vis s).take n) ∧
    ((vis s).length < n → (readExact io n s).1 = none ∧ ∀ log, Logged io log → log (readExact io n s).2 = log s ++ vis s) :=
  readExactLoop_law L _ n s (Nat.lt_succ_of_le (L.left s))

/-! ## Headers -/

theorem readHeaders_step (n : Nat) (size : Option Nat) (inp : List Nat) : Framing.readHeaders (n + 1) size inp =
    if (Framing.readLine inp).1 = [] then .eof else
      match header size (Framing.readLine inp).1 with
      | .bad => .err
      | .last => .done size (Framing.readLine inp).2
      | .next size => Framing.readHeaders n size (Framing.readLine inp).2 := by
  conv => lhs; unfold Framing.readHeaders
  unfold header
  simp only
  split
  · rfl
  · cases Utf8.decode (Framing.readLine inp).1 with
    | none => rfl
    | some buf =>
      simp only
      split
      · rfl
      · split
        · rfl
        · cases Framing.splitColon (buf.take (buf.length - 2)) with
          | none => rfl
          | some p =>
            obtain ⟨name, value⟩ := p
            simp only
            split
            · cases RustNum.parse 10 Framing.usizeMax value <;> rfl
            · rfl

/-- Lines without a line break are bad. -/
theorem header_bad {size : Option Nat} {line : List Nat} (h : 10 ∉ line) : header size line = .bad := by
  unfold header
  cases hd : Utf8.decode line with
  | none => rfl
  | some buf =>
    simp only
    rw [if_pos]
    intro hs
    obtain ⟨t, rfl⟩ := List.isSuffixOf_iff_suffix.1 hs
    refine h ?_
    rw [Utf8.decode_sound hd, Utf8.encode_append, Framing.encode_crlf]
    simp

theorem readLine_shape : ∀ (inp : List Nat), 10 ∈ (Framing.readLine inp).1 → ∃ xs, 10 ∉ xs ∧ (Framing.readLine inp).1 = xs ++ [10] ∧
    inp = xs ++ 10 :: (Framing.readLine inp).2
  | [], h => nomatch h
  | b :: bs, h => by
    unfold Framing.readLine at h ⊢
    split at h
    · rename_i hb
      subst hb
      exact ⟨[], nofun, by simp, by simp⟩
    · rename_i hb
      rw [if_neg hb]
      simp only at h ⊢
      obtain ⟨xs, h1, h2, h3⟩ := readLine_shape bs ((List.mem_cons.1 h).resolve_left fun e => hb e.symm)
      refine ⟨b :: xs, fun hm => ?_, by rw [h2]; rfl, by rw [List.cons_append, ← h3]⟩
      rcases List.mem_cons.1 hm with e | e
      · exact hb e.symm
      · exact h1 e

/-- What the headers are, by bytes: `w` is read, `rest` is not, until the input ends. -/
def HeadIs (size : Option Nat) (w rest : List Nat) : Head → List Nat → Prop
  | .eof, _ => rest = [] ∧ ∀ m, w.length < m → Framing.readHeaders m size w = .eof
  | .err, _ => ∀ m, w.length < m → Framing.readHeaders m size w = .err ∧ Framing.readHeaders m size (w ++ rest) = .err
  | .done sz, v => v = rest ∧ ∀ m, w.length < m → ∀ x, Framing.readHeaders m size (w ++ x) = .done sz x

theorem headers_law {σ : Type} {io : Input σ} {vis : σ → List Nat} (L : Law io vis) : ∀ (n : Nat) (size : Option Nat) (s : σ), (vis s).length < n →
    ∃ w rest, vis s = w ++ rest ∧ (∀ log, Logged io log → log (headers io n size s).2 = log s ++ w) ∧
      HeadIs size w rest (headers io n size s).1 (vis (headers io n size s).2)
  | 0, _, _, h => absurd h (Nat.not_lt_zero _)
  | n + 1, size, s, h => by
    obtain ⟨l1, l2, l3, l4⟩ := readLine_law L s
    unfold headers
    simp only
    by_cases hl : 10 ∈ (readLine io s).1
    · rw [l1] at hl
      obtain ⟨xs, hx, e1, e2⟩ := readLine_shape _ hl
      have e1' : (readLine io s).1 = xs ++ [10] := l1.trans e1
      have l2' := l2 (by rw [e1']; simp)
      have el : ∀ x, Framing.readLine ((xs ++ [10]) ++ x) = (xs ++ [10], x) := by
        intro x
        rw [List.append_assoc, List.singleton_append]
        exact Framing.readLine_append xs x hx
      have ev : vis s = (xs ++ [10]) ++ (Framing.readLine (vis s)).2 := by
        rw [List.append_assoc, List.singleton_append]
        exact e2
      have hne : xs ++ [10] ≠ [] := by simp
      have hF : ∀ (m : Nat) (x : List Nat), Framing.readHeaders (m + 1) size ((xs ++ [10]) ++ x) =
          match header size (xs ++ [10]) with
          | .bad => .err
          | .last => .done size x
          | .next size => Framing.readHeaders m size x := by
        intro m x
        rw [readHeaders_step, el]
        simp only
        rw [if_neg hne]
      rw [e1', if_neg hne]
      cases hh : header size (xs ++ [10]) with
      | bad =>
        refine ⟨xs ++ [10], _, ev, fun log Lg => by rw [← e1']; exact l4 log Lg, fun m hm => ?_⟩
        obtain ⟨m, rfl⟩ := Nat.exists_eq_succ_of_ne_zero (Nat.pos_iff_ne_zero.1 (Nat.lt_of_le_of_lt (Nat.zero_le _) hm))
        have h0 := hF m []
        rw [hh, List.append_nil] at h0
        have h1 := hF m (Framing.readLine (vis s)).2
        rw [hh] at h1
        exact ⟨h0, h1⟩
      | last =>
        refine ⟨xs ++ [10], _, ev, fun log Lg => by rw [← e1']; exact l4 log Lg, l2', fun m hm x => ?_⟩
        obtain ⟨m, rfl⟩ := Nat.exists_eq_succ_of_ne_zero (Nat.pos_iff_ne_zero.1 (Nat.lt_of_le_of_lt (Nat.zero_le _) hm))
        rw [hF, hh]
      | next sz =>
        simp only
        have hlen : (vis (readLine io s).2).length < n := by
          rw [l2']
          have := congrArg List.length ev
          simp only [List.length_append, List.length_singleton] at this
          omega
        obtain ⟨w, rest, i1, i2, i3⟩ := headers_law L n sz (readLine io s).2 hlen
        refine ⟨(xs ++ [10]) ++ w, rest, ?_, fun log Lg => ?_, ?_⟩
        · rw [List.append_assoc, ← i1, l2']
          exact ev
        · rw [i2 log Lg, l4 log Lg, e1', List.append_assoc]
        · have hF' : ∀ m, ((xs ++ [10]) ++ w).length < m → ∃ m', m = m' + 1 ∧ w.length < m' ∧
              ∀ x, Framing.readHeaders m size ((xs ++ [10]) ++ x) = Framing.readHeaders m' sz x := by
            intro m hm
            obtain ⟨m, rfl⟩ := Nat.exists_eq_succ_of_ne_zero (Nat.pos_iff_ne_zero.1 (Nat.lt_of_le_of_lt (Nat.zero_le _) hm))
            refine ⟨m, rfl, ?_, fun x => ?_⟩
            · simp only [List.length_append, List.length_singleton] at hm
              omega
            · rw [hF, hh]
          cases hr : (headers io n sz (readLine io s).2).1 with
          | eof =>
            rw [hr] at i3
            refine ⟨i3.1, fun m hm => ?_⟩
            obtain ⟨m', _, hm', hf⟩ := hF' m hm
            rw [hf, i3.2 m' hm']
          | err =>
            rw [hr] at i3
            intro m hm
            obtain ⟨m', _, hm', hf⟩ := hF' m hm
            rw [hf, List.append_assoc, hf]
            exact i3 m' hm'
          | done sz' =>
            rw [hr] at i3
            refine ⟨i3.1, fun m hm x => ?_⟩
            obtain ⟨m', _, hm', hf⟩ := hF' m hm
            rw [List.append_assoc, hf, i3.2 m' hm' x]
    · have hv := l3 hl
      have hfl : (Framing.readLine (vis s)).1 = vis s := by rw [← l1, hv]
      by_cases he : (readLine io s).1 = []
      · rw [if_pos he]
        have hv' : vis s = [] := by rw [← hv, he]
        refine ⟨[], [], hv', fun log Lg => by rw [l4 log Lg, he], rfl, fun m hm => ?_⟩
        obtain ⟨m, rfl⟩ := Nat.exists_eq_succ_of_ne_zero (Nat.pos_iff_ne_zero.1 (Nat.lt_of_le_of_lt (Nat.zero_le _) hm))
        rw [readHeaders_step]
        rfl
      · rw [if_neg he, header_bad hl]
        refine ⟨vis s, [], by simp, fun log Lg => by rw [l4 log Lg, hv], fun m hm => ?_⟩
        obtain ⟨m, rfl⟩ := Nat.exists_eq_succ_of_ne_zero (Nat.pos_iff_ne_zero.1 (Nat.lt_of_le_of_lt (Nat.zero_le _) hm))
        rw [List.append_nil, and_self, readHeaders_step, hfl, if_neg (by rw [← hv]; exact he), header_bad (by rw [← hv]; exact hl)]

/-! ## Messages -/

/-- What a message is, by bytes. -/
def GotIs (w rest : List Nat) : Got → List Nat → Prop
  | .eof, _ => rest = [] ∧ Framing.readMsg w = .eof
  | .err, _ => Framing.readMsg w = .err ∧ Framing.readMsg (w ++ rest) = .err
  | .text t, v => v = rest ∧ ∀ x, Framing.readMsg (w ++ x) = .msg t x

theorem readText_law {σ : Type} {io : Input σ} {vis : σ → List Nat} (L : Law io vis) (s : σ) :
    ∃ w rest, vis s = w ++ rest ∧ (∀ log, Logged io log → log (readText io s).2 = log s ++ w) ∧
      GotIs w rest (readText io s).1 (vis (readText io s).2) := by
  obtain ⟨w, rest, h1, h2, h3⟩ := headers_law L (io.left s + 1) none s (Nat.lt_succ_of_le (L.left s))
  unfold readText
  simp only
  cases hh : (headers io (io.left s + 1) none s).1 with
  | eof =>
    rw [hh] at h3
    refine ⟨w, rest, h1, h2, h3.1, ?_⟩
    unfold Framing.readMsg
    rw [h3.2 _ (Nat.lt_succ_self _)]
  | err =>
    rw [hh] at h3
    refine ⟨w, rest, h1, h2, ?_, ?_⟩
    · unfold Framing.readMsg
      rw [(h3 _ (Nat.lt_succ_self _)).1]
    · unfold Framing.readMsg
      rw [(h3 _ (by rw [List.length_append]; omega)).2]
  | done sz =>
    rw [hh] at h3
    obtain ⟨h3, h4⟩ := h3
    have hm : ∀ x, Framing.readHeaders ((w ++ x).length + 1) none (w ++ x) = .done sz x := fun x =>
      h4 _ (by rw [List.length_append]; omega) x
    cases sz with
    | none =>
      refine ⟨w, rest, h1, h2, ?_, ?_⟩
      · have := hm []
        rw [List.append_nil] at this
        unfold Framing.readMsg
        rw [this]
      · unfold Framing.readMsg
        rw [hm]
    | some size =>
      simp only
      obtain ⟨r1, r2⟩ := readExact_law L size (headers io (io.left s + 1) none s).2
      rw [h3] at r1 r2
      have hmsg : ∀ x, Framing.readMsg (w ++ x) = if x.length < size then .err else
          match Utf8.decode (x.take size) with
          | none => .err
          | some text => .msg text (x.drop size) := by
        intro x
        unfold Framing.readMsg
        rw [hm]
        rfl
      by_cases hle : size ≤ rest.length
      · obtain ⟨e1, e2, e3⟩ := r1 hle
        have hl : (rest.take size).length = size := by
          rw [List.length_take]
          omega
        rw [e1]
        have hmsg' : ∀ x, Framing.readMsg ((w ++ rest.take size) ++ x) =
            match Utf8.decode (rest.take size) with
            | none => .err
            | some text => .msg text x := by
          intro x
          rw [List.append_assoc, hmsg, if_neg (by rw [List.length_append]; omega)]
          have e1 : (rest.take size ++ x).take size = rest.take size := by
            rw [List.take_append, hl, Nat.sub_self, List.take_zero, List.append_nil, List.take_of_length_le (Nat.le_of_eq hl)]
          have e2 : (rest.take size ++ x).drop size = x := by
            rw [List.drop_append, hl, Nat.sub_self, List.drop_zero, List.drop_eq_nil_of_le (Nat.le_of_eq hl), List.nil_append]
          rw [e1, e2]
        have hv : vis s = (w ++ rest.take size) ++ rest.drop size := by
          rw [List.append_assoc, List.take_append_drop]
          exact h1
        have hlog : ∀ log, Logged io log → log (readExact io size (headers io (io.left s + 1) none s).2).2 = log s ++ (w ++ rest.take size) := by
          intro log Lg
          rw [e3 log Lg, h2 log Lg, List.append_assoc]
        simp only
        cases hd : Utf8.decode (rest.take size) with
        | none =>
          rw [hd] at hmsg'
          refine ⟨_, _, hv, hlog, ?_, hmsg' _⟩
          have := hmsg' []
          rwa [List.append_nil] at this
        | some text =>
          rw [hd] at hmsg'
          exact ⟨_, _, hv, hlog, e2, hmsg'⟩
      · obtain ⟨e1, e2⟩ := r2 (Nat.lt_of_not_le hle)
        rw [e1]
        refine ⟨w ++ rest, [], by rw [List.append_nil]; exact h1, fun log Lg => by rw [e2 log Lg, h2 log Lg, List.append_assoc], ?_⟩
        have : Framing.readMsg (w ++ rest) = .err := by
          rw [hmsg, if_pos (Nat.lt_of_not_le hle)]
        exact ⟨this, by rw [List.append_nil]; exact this⟩

/-- The reader on bytes. -/
def onBytes {M : Type} (parse : List Char → Option M) (isExit : M → Bool) : Nat → List Nat → List M × End
  | 0, _ => ([], .going)
  | n + 1, inp =>
    match Framing.readMsg inp with
    | .eof => ([], .eof)
    | .err => ([], .err)
    | .msg text rest =>
      match parse text with
      | none => ([], .err)
      | some m => if isExit m then ([m], .exit) else (m :: (onBytes parse isExit n rest).1, (onBytes parse isExit n rest).2)

theorem reader_law {σ M : Type} {io : Input σ} {vis : σ → List Nat} (L : Law io vis) (parse : List Char → Option M) (isExit : M → Bool) :
    ∀ (n : Nat) (s : σ), ∃ w rest, vis s = w ++ rest ∧ (∀ log, Logged io log → log (reader io parse isExit n s).2.2 = log s ++ w) ∧
      onBytes parse isExit n (vis s) = ((reader io parse isExit n s).1, (reader io parse isExit n s).2.1) ∧
      ((reader io parse isExit n s).2.1 = .going → ∀ k x, onBytes parse isExit (n + k) (w ++ x) =
        ((reader io parse isExit n s).1 ++ (onBytes parse isExit k x).1, (onBytes parse isExit k x).2)) ∧
      ((reader io parse isExit n s).2.1 ≠ .going → ∀ k, onBytes parse isExit (n + k) w = ((reader io parse isExit n s).1, (reader io parse isExit n s).2.1))
  | 0, s => by
    refine ⟨[], vis s, rfl, fun log _ => by simp [reader], rfl, fun _ k x => ?_, fun h => absurd rfl h⟩
    rw [Nat.zero_add]
    rfl
  | n + 1, s => by
    obtain ⟨w, rest, h1, h2, h3⟩ := readText_law L s
    unfold reader
    simp only
    have hk : ∀ k, n + 1 + k = (n + k) + 1 := by omega
    cases hr : (readText io s).1 with
    | eof =>
      rw [hr] at h3
      obtain ⟨rfl, h3⟩ := h3
      rw [List.append_nil] at h1
      refine ⟨w, [], by rw [List.append_nil]; exact h1, h2, ?_, fun h => (nomatch h), fun _ k => ?_⟩
      · rw [onBytes, h1, h3]
      · rw [hk, onBytes, h3]
    | err =>
      rw [hr] at h3
      refine ⟨w, rest, h1, h2, ?_, fun h => (nomatch h), fun _ k => ?_⟩
      · rw [onBytes, h1, h3.2]
      · rw [hk, onBytes, h3.1]
    | text text =>
      rw [hr] at h3
      obtain ⟨h3, h4⟩ := h3
      have h4' := h4 []
      rw [List.append_nil] at h4'
      simp only
      cases hp : parse text with
      | none =>
        refine ⟨w, rest, h1, h2, ?_, fun h => (nomatch h), fun _ k => ?_⟩
        · rw [onBytes, h1, h4]
          simp only [hp]
        · rw [hk, onBytes, h4']
          simp only [hp]
      | some m =>
        simp only
        by_cases he : isExit m = true
        · rw [if_pos he]
          refine ⟨w, rest, h1, h2, ?_, fun h => (nomatch h), fun _ k => ?_⟩
          · rw [onBytes, h1, h4]
            simp only [hp, if_pos he]
          · rw [hk, onBytes, h4']
            simp only [hp, if_pos he]
        · rw [if_neg he]
          obtain ⟨w', rest', i1, i2, i3, i4, i5⟩ := reader_law L parse isExit n (readText io s).2
          rw [h3] at i1 i3
          refine ⟨w ++ w', rest', ?_, fun log Lg => ?_, ?_, fun hg k x => ?_, fun hg k => ?_⟩
          · rw [List.append_assoc, ← i1]
            exact h1
          · rw [i2 log Lg, h2 log Lg, List.append_assoc]
          · rw [onBytes, h1, h4]
            simp only [hp, if_neg he, i3]
          · rw [hk, List.append_assoc, onBytes, h4]
            simp only [hp, if_neg he]
            rw [i4 hg k x]
            rfl
          · rw [hk, onBytes, h4]
            simp only [hp, if_neg he]
            rw [i5 hg k]

end Tinymist.Mirror
