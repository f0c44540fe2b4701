import Verif.Lemmas.Framing
/-!
# C17: message framing is lossless
-/
namespace Tinymist.Framing
open Spec

/-- **C17.** Any sequence of messages written to a stream is read back as the same sequence,
followed by a proper end of stream. -/
theorem stream_roundtrip (msgs : List (List Char)) (h : ∀ m ∈ msgs, (Utf8.encode m).length < 2 ^ 64) :
    readAll (msgs.length + 1) (msgs.flatMap writeMsg) = (msgs, true) := by
  induction msgs with
  | nil => rfl
  | cons m msgs ih =>
    simp only [List.mem_cons, forall_eq_or_imp] at h
    have hm := readMsg_writeMsg m (Nat.le_sub_one_of_lt h.1) (msgs.flatMap writeMsg)
    rw [List.length_cons, List.flatMap_cons]
    rw [readAll, hm]
    simp only [ih h.2]

/-- **C17.** Additional headers before and after the length are ignored, the name of the length header is
case-insensitive, and what follows the message stays in the stream. -/
theorem extra_headers_ignored (pre post : List ExtraHeader) (hpre : ∀ h ∈ pre, h.Ok)
    (hpost : ∀ h ∈ post, h.Ok) (name : List Char) (hname : name.map Char.toLower = "content-length".toList)
    (body : List Char) (hlen : (Utf8.encode body).length < 2 ^ 64) (rest : List Nat) :
    readMsg (frame ((pre.map fun h => line h.name h.value) ++
        [line name (RustNum.print 10 (Utf8.encode body).length)] ++
        (post.map fun h => line h.name h.value)) body ++ rest) = .msg body rest :=
  readMsg_frame pre post hpre hpost name (lower_eq ▸ hname) body (Nat.le_sub_one_of_lt hlen) rest

/-- **C17.** A stream that ends inside a message never yields a message: it is an error, or the
end of the stream if it ends exactly before or after the first header line. -/
theorem truncated_is_error (m : List Char) (hlen : (Utf8.encode m).length < 2 ^ 64)
    (p q : List Nat) (hq : q ≠ []) (hp : p ++ q = writeMsg m) :
    readMsg p = .err ∨ (readMsg p = .eof ∧
      (p = [] ∨ p = Utf8.encode ("Content-Length: ".toList ++ RustNum.print 10 (Utf8.encode m).length ++ "\r\n".toList))) := by
  replace hlen : (Utf8.encode m).length ≤ usizeMax := Nat.le_sub_one_of_lt hlen
  generalize hk : (Utf8.encode m).length = k at hlen
  have hdig : '\n' ∉ RustNum.print 10 k := by
    intro hm
    obtain ⟨d, hd, he⟩ := RustNum.mem_print (b := 10) (by omega) k _ hm
    have : ∀ d < 10, '\n' ≠ RustNum.digitChar d := by decide
    exact this d hd he
  have hl : '\n' ∉ line "Content-Length".toList (RustNum.print 10 k) := by
    unfold line
    simp only [List.mem_append, not_or]
    exact ⟨⟨by decide, by decide⟩, hdig⟩
  have hascii : ∀ c ∈ line "Content-Length".toList (RustNum.print 10 k) ++ "\r\n".toList, Utf8.encodeChar c = [c.toNat] := by
    intro c hc
    have hlt : c.toNat < 0x80 := by
      simp only [line, List.mem_append] at hc
      rcases hc with ((hc | hc) | hc) | hc
      · have : ∀ c ∈ "Content-Length".toList, c.toNat < 0x80 := by decide
        exact this c hc
      · have : ∀ c ∈ ": ".toList, c.toNat < 0x80 := by decide
        exact this c hc
      · obtain ⟨d, hd, rfl⟩ := RustNum.mem_print (b := 10) (by omega) k _ hc
        have : ∀ d < 10, (RustNum.digitChar d).toNat < 0x80 := by decide
        exact this d hd
      · have : ∀ c ∈ "\r\n".toList, c.toNat < 0x80 := by decide
        exact this c hc
    simp [Utf8.encodeChar, hlt]
  have henc : ∀ s : List Char, (∀ c ∈ s, Utf8.encodeChar c = [c.toNat]) → Utf8.encode s = s.map Char.toNat := by
    intro s hs
    induction s with
    | nil => rfl
    | cons c s ih =>
      simp only [List.mem_cons, forall_eq_or_imp] at hs
      rw [Utf8.encode_cons, hs.1, ih hs.2]; rfl
  rw [writeMsg_eq, hk] at hp
  simp only [frame, List.flatMap_cons, List.flatMap_nil, List.append_nil] at hp
  have hline : "Content-Length: ".toList ++ RustNum.print 10 k ++ "\r\n".toList =
      line "Content-Length".toList (RustNum.print 10 k) ++ "\r\n".toList := by
    unfold line; simp
  rw [hline]
  generalize hL : line "Content-Length".toList (RustNum.print 10 k) = L at *
  -- the three regions of the frame
  by_cases hp0 : p = []
  · subst hp0; right; exact ⟨rfl, .inl rfl⟩
  by_cases h1 : p.length < (Utf8.encode (L ++ "\r\n".toList)).length
  · -- inside the first line
    left
    have hpre : p <+: Utf8.encode (L ++ "\r\n".toList) := by
      have : p <+: (Utf8.encode (L ++ "\r\n".toList) ++ Utf8.encode "\r\n".toList) ++ Utf8.encode m := ⟨q, hp⟩
      rw [List.append_assoc] at this
      exact List.prefix_of_prefix_length_le this (List.prefix_append _ _) (by omega)
    have hpe : p = Utf8.encode ((L ++ "\r\n".toList).take p.length) := by
      rw [henc _ (fun c hc => hascii c (List.mem_of_mem_take hc)), List.map_take]
      rw [henc _ hascii] at hpre
      exact List.prefix_iff_eq_take.mp hpre
    have hlt : p.length < L.length + 2 := by
      rw [henc _ hascii] at h1; simpa using h1
    have hnl : '\n' ∉ (L ++ "\r\n".toList).take p.length := by
      intro hm
      have : (L ++ "\r\n".toList).take p.length <+: L ++ ['\r'] := by
        have e : L ++ "\r\n".toList = (L ++ ['\r']) ++ ['\n'] := by simp
        rw [e, List.take_append_of_le_length (by simp; omega)]
        exact List.take_prefix _ _
      have := this.subset hm
      simp only [List.mem_append, List.mem_singleton] at this
      rcases this with h | h
      · exact hl h
      · exact absurd h (by decide)
    have hsuf : ¬ ("\r\n".toList.isSuffixOf ((L ++ "\r\n".toList).take p.length)) = true := by
      rw [List.isSuffixOf_iff_suffix]
      intro h
      exact hnl (h.subset (by decide))
    unfold readMsg
    simp only [readHeaders]
    have h10 : 10 ∉ p := by rw [hpe]; exact newline_not_mem_encode hnl
    rw [readLine_no_newline p h10]
    simp only [if_neg hp0]
    rw [show Utf8.decode p = some ((L ++ "\r\n".toList).take p.length) by
      conv => lhs; rw [hpe]
      exact Utf8.decode_encode _]
    simp only [hsuf, not_false_eq_true, if_true]
    simp
  · -- past the first line
    have hpre : Utf8.encode (L ++ "\r\n".toList) <+: p := by
      have h2 : p <+: (Utf8.encode (L ++ "\r\n".toList) ++ Utf8.encode "\r\n".toList) ++ Utf8.encode m := ⟨q, hp⟩
      rw [List.append_assoc] at h2
      exact List.prefix_of_prefix_length_le (List.prefix_append _ _) h2 (by omega)
    obtain ⟨p2, rfl⟩ := hpre
    have hp' : p2 ++ q = Utf8.encode "\r\n".toList ++ Utf8.encode m := by
      rw [List.append_assoc, List.append_assoc, List.append_cancel_left_eq] at hp
      exact hp
    have hstep : ∀ n, readHeaders (n + 1) none (Utf8.encode (L ++ "\r\n".toList) ++ p2) = readHeaders n (some k) p2 := by
      intro n
      rw [← hL]
      exact length_step n none "Content-Length".toList k hlen (by decide) p2
    unfold readMsg
    rw [hstep]
    have hfuel : ∃ n, (Utf8.encode (L ++ "\r\n".toList) ++ p2).length = n + 2 := by
      have := encode_length_pos_line L
      rw [List.length_append]
      exact ⟨(Utf8.encode (L ++ "\r\n".toList)).length + p2.length - 2, by omega⟩
    obtain ⟨n, hn⟩ := hfuel
    rw [hn]
    rw [encode_crlf] at hp'
    match p2, hp' with
    | [], _ => right; simp [readHeaders, readLine]
    | [x], hp' =>
      left
      simp only [List.cons_append, List.nil_append, List.cons.injEq] at hp'
      obtain ⟨rfl, -⟩ := hp'
      have : Utf8.decode [13] = some ['\r'] := by decide +kernel
      have h2 : ("\r\n".toList.isSuffixOf ['\r']) = false := by decide
      simp only [readHeaders, readLine, show ¬ ((13 : Nat) = 10) by decide, if_false]
      rw [if_neg (by simp), this]
      simp only [h2, Bool.false_eq_true, not_false_eq_true, if_true]
    | x :: y :: p3, hp' =>
      left
      simp only [List.cons_append, List.nil_append, List.cons.injEq] at hp'
      obtain ⟨rfl, rfl, hb⟩ := hp'
      have he : readHeaders (n + 2) (some k) (13 :: 10 :: p3) = .done (some k) p3 := by
        have := readHeaders_end (n + 1) (some k) p3
        rw [encode_crlf] at this
        exact this
      rw [he]
      simp only []
      have : p3.length + q.length = k := by
        rw [← hk, ← hb]; simp
      have hql : 0 < q.length := List.length_pos_iff.mpr hq
      rw [if_pos (by omega)]

/-- **C17.** A stream that ends inside a message yields the messages before it and then an error; only if it ends after
the first line of the message, or before it, is that taken for a proper end. -/
theorem truncated_stream (msgs : List (List Char)) (h : ∀ m ∈ msgs, (Utf8.encode m).length < 2 ^ 64) (m : List Char)
    (hlen : (Utf8.encode m).length < 2 ^ 64) (p q : List Nat) (hq : q ≠ []) (hp : p ++ q = writeMsg m) (fuel : Nat) :
    ∃ proper, readAll (msgs.length + 1 + fuel) (msgs.flatMap writeMsg ++ p) = (msgs, proper) ∧
      (proper = true → p = [] ∨
        p = Utf8.encode ("Content-Length: ".toList ++ RustNum.print 10 (Utf8.encode m).length ++ "\r\n".toList)) := by
  induction msgs with
  | nil =>
    rw [show [].length + 1 + fuel = fuel + 1 by simp; omega]
    simp only [List.flatMap_nil, List.nil_append, readAll]
    rcases truncated_is_error m hlen p q hq hp with e | ⟨e, h⟩ <;> rw [e]
    · exact ⟨false, rfl, by simp⟩
    · exact ⟨true, rfl, fun _ => h⟩
  | cons a msgs ih =>
    simp only [List.mem_cons, forall_eq_or_imp] at h
    obtain ⟨proper, h1, h2⟩ := ih h.2
    refine ⟨proper, ?_, h2⟩
    rw [List.length_cons, show msgs.length + 1 + 1 + fuel = (msgs.length + 1 + fuel) + 1 by omega, List.flatMap_cons,
      List.append_assoc, readAll, readMsg_writeMsg a (Nat.le_sub_one_of_lt h.1)]
    simp only [h1]

theorem parseDigits_big {max n : Nat} (hn : max < n) : RustNum.parseDigits 10 max 0 (RustNum.print 10 n) = none := by
  have h : ∀ n, RustNum.parseDigits 10 max 0 (RustNum.print 10 n) = if n ≤ max then some n else none := by
    intro n
    induction n using Nat.strongRecOn with
    | ind n ih =>
      rw [RustNum.print]
      simp only [show ¬ (10 < 2) by omega, dite_false]
      split
      · rename_i hlt
        simp only [RustNum.parseDigits]
        rw [RustNum.digitVal_digitChar (by omega) hlt]
        simp
      · rename_i hge
        rw [RustNum.parseDigits_append, ih (n / 10) (by omega)]
        have hd : n / 10 * 10 + n % 10 = n := by omega
        by_cases hle : n / 10 ≤ max
        · simp only [hle, if_true, Option.bind_some, RustNum.parseDigits]
          rw [RustNum.digitVal_digitChar (by omega) (show n % 10 < 10 by omega)]
          simp only [hd]
        · simp only [hle, if_false, Option.bind_none]
          rw [if_neg (by omega)]
  rw [h, if_neg (by omega)]

/-- **C17.** A declared length that is no number of the machine is an error. -/
theorem oversized_is_error (name : List Char) (hname : name.map Char.toLower = "content-length".toList) (n : Nat)
    (hn : 2 ^ 64 ≤ n) (rest : List Nat) :
    readMsg (Utf8.encode (line name (RustNum.print 10 n) ++ "\r\n".toList) ++ rest) = .err := by
  have hdig : '\n' ∉ RustNum.print 10 n := by
    intro hm
    obtain ⟨d, hd, he⟩ := RustNum.mem_print (b := 10) (by omega) n _ hm
    have : ∀ d < 10, '\n' ≠ RustNum.digitChar d := by decide
    exact this d hd he
  have hplus : '+' ∉ RustNum.print 10 n := by
    intro hm
    obtain ⟨d, hd, he⟩ := RustNum.mem_print (b := 10) (by omega) n _ hm
    exact RustNum.digitChar_ne_plus (by omega) he.symm
  rw [← lower_eq] at hname
  have hlow : ∀ c : Char, c ∈ name → lower c ∈ "content-length".toList := by
    intro c hc; rw [← hname]; exact List.mem_map_of_mem hc
  have hnn : '\n' ∉ name := fun h => absurd (hlow _ h) (by decide)
  have hsp : ' ' ∉ name := fun h => absurd (hlow _ h) (by decide)
  have hin : ¬ ": ".toList <:+: name := fun h => hsp (h.subset (by decide))
  have hnl : '\n' ∉ line name (RustNum.print 10 n) := by
    unfold line
    simp only [List.mem_append, not_or]
    exact ⟨⟨hnn, by decide⟩, hdig⟩
  have hne : line name (RustNum.print 10 n) ≠ [] := by unfold line; simp
  have hp : RustNum.parse 10 usizeMax (RustNum.print 10 n) = none := by
    have hb := parseDigits_big (max := usizeMax) (n := n) (by unfold usizeMax; omega)
    cases hc : RustNum.print 10 n with
    | nil => exact (RustNum.print_ne_nil (by omega) n hc).elim
    | cons c cs =>
      rw [hc] at hb hplus
      have : c ≠ '+' := fun e => hplus (by rw [e]; simp)
      unfold RustNum.parse
      split
      · rfl
      · rfl
      · rename_i h; exact (this (List.cons.inj h).1).elim
      · exact hb
  unfold readMsg
  rw [readHeaders_line _ none _ rest hne hnl, splitColon_line _ _ hin]
  have : eqIgnoreCase name "Content-Length".toList = true := by
    unfold eqIgnoreCase
    rw [show "Content-Length".toList.map lower = "content-length".toList by decide, hname]
    decide
  simp only [this, if_true, hp]

/-- Non-vacuity: bodies that contain a header, line breaks and non-ASCII text. -/
example : readAll 3 (["Content-Length: 3\r\n\r\nabc".toList, "é𝄞\r\n".toList].flatMap writeMsg) =
      (["Content-Length: 3\r\n\r\nabc".toList, "é𝄞\r\n".toList], true) ∧
    (⟨"Content-Type".toList, "utf-8; a: b".toList⟩ : ExtraHeader).Ok := by
  refine ⟨by decide +kernel, by decide, ?_, by decide, by decide⟩
  intro h
  exact absurd (h.subset (show ' ' ∈ ": ".toList by decide)) (by decide)

/-! ## What is read was sent -/

theorem readLine_rejoin (inp : List Nat) : (readLine inp).1 ++ (readLine inp).2 = inp := by
  induction inp with
  | nil => rfl
  | cons b bs ih =>
    rw [readLine]
    split
    · rename_i h; subst h; rfl
    · simp only [List.cons_append, ih]

theorem splitColon_sound {buf name value : List Char} (h : splitColon buf = some (name, value)) : buf = line name value := by
  induction buf generalizing name with
  | nil => simp [splitColon] at h
  | cons c r ih =>
    have step : ∀ {n : List Char}, ((splitColon r).map fun p => (c :: p.1, p.2)) = some (n, value) → c :: r = line n value := by
      intro n h
      obtain ⟨⟨n', v'⟩, hs, he⟩ := Option.map_eq_some_iff.mp h
      cases he
      rw [ih hs]
      rfl
    by_cases hc : c = ':' ∧ r.head? = some ' '
    · obtain ⟨rfl, hr⟩ := hc
      cases r with
      | nil => cases hr
      | cons d r =>
        cases hr
        simp only [splitColon, Option.some.injEq, Prod.mk.injEq] at h
        obtain ⟨rfl, rfl⟩ := h
        rfl
    · rw [splitColon] at h
      · exact step h
      · rintro _ rfl rfl
        exact hc ⟨rfl, rfl⟩

theorem readHeaders_sound {n : Nat} {size size' : Option Nat} {inp rest : List Nat}
    (h : readHeaders n size inp = .done size' rest) :
    ∃ lines : List (List Char), inp = lines.flatMap (fun l => Utf8.encode (l ++ "\r\n".toList)) ++ Utf8.encode "\r\n".toList ++ rest ∧
      (size' = size ∨ ∃ l ∈ lines, ∃ name value k, l = line name value ∧ name.map lower = "content-length".toList ∧
        RustNum.parse 10 usizeMax value = some k ∧ size' = some k) := by
  induction n generalizing size inp with
  | zero => cases h
  | succ n ih =>
    simp only [readHeaders] at h
    split at h
    · cases h
    · split at h
      · cases h
      · rename_i buf hb
        split at h
        · cases h
        · rename_i hsuf
          simp only [Decidable.not_not, List.isSuffixOf_iff_suffix] at hsuf
          obtain ⟨body, hbody⟩ := hsuf
          have htake : buf.take (buf.length - 2) = body := by
            rw [← hbody, List.length_append, show "\r\n".toList.length = 2 from rfl, Nat.add_sub_cancel, List.take_left]
          have hline : inp = Utf8.encode (body ++ "\r\n".toList) ++ (readLine inp).2 := by
            rw [hbody, ← Utf8.decode_sound hb, readLine_rejoin]
          rw [htake] at h
          split at h
          · rename_i he
            cases h
            refine ⟨[], ?_, .inl rfl⟩
            rw [he] at hline
            exact hline
          · split at h
            · cases h
            · rename_i name value hs
              have hl := splitColon_sound hs
              split at h
              · rename_i hname
                split at h
                · cases h
                · rename_i sz hsz
                  obtain ⟨lines, h1, h2⟩ := ih h
                  refine ⟨body :: lines, ?_, .inr ?_⟩
                  · rw [List.flatMap_cons, List.append_assoc, List.append_assoc, ← List.append_assoc _ _ rest, ← h1]
                    exact hline
                  · rcases h2 with rfl | ⟨l, hl', name', value', k, h3⟩
                    · refine ⟨body, .head _, name, value, sz, hl, ?_, hsz, rfl⟩
                      simp only [eqIgnoreCase, beq_iff_eq] at hname
                      rw [hname]
                      decide
                    · exact ⟨l, .tail _ hl', name', value', k, h3⟩
              · obtain ⟨lines, h1, h2⟩ := ih h
                refine ⟨body :: lines, ?_, ?_⟩
                · rw [List.flatMap_cons, List.append_assoc, List.append_assoc, ← List.append_assoc _ _ rest, ← h1]
                  exact hline
                · rcases h2 with rfl | ⟨l, hl', name', value', k, h3⟩
                  · exact .inl rfl
                  · exact .inr ⟨l, .tail _ hl', name', value', k, h3⟩

/-- C17: a message that is read is what was sent: the bytes read are those of header lines, one of which gives the length of
the message in bytes, of an empty line, and of the message. -/
theorem read_was_sent {inp rest : List Nat} {text : List Char} (h : readMsg inp = .msg text rest) :
    ∃ lines, inp = frame lines text ++ rest ∧
      ∃ l ∈ lines, ∃ name value, l = line name value ∧ name.map Char.toLower = "content-length".toList ∧
        RustNum.parse 10 usizeMax value = some (Utf8.encode text).length := by
  rw [readMsg] at h
  split at h
  · cases h
  · cases h
  · cases h
  · rename_i size r hh
    split at h
    · cases h
    · rename_i hlen
      split at h
      · cases h
      · rename_i t ht
        cases h
        obtain ⟨lines, h1, h2⟩ := readHeaders_sound hh
        have henc := Utf8.decode_sound ht
        refine ⟨lines, ?_, ?_⟩
        · rw [frame, ← henc, List.append_assoc, List.take_append_drop]
          exact h1
        · rcases h2 with h2 | ⟨l, hl, name, value, k, h3, h4, h5, h6⟩
          · cases h2
          · cases h6
            refine ⟨l, hl, name, value, h3, ?_, ?_⟩
            · rw [← h4]
              rw [lower_eq]
            · rw [← henc, List.length_take, Nat.min_eq_left (by omega)]
              exact h5

end Tinymist.Framing
