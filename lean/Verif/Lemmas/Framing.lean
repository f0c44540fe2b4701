import Verif.Spec.Framing
import Verif.Lemmas.RustNum
import Verif.Lemmas.Utf8
namespace Tinymist.Framing
open Spec

theorem readLine_append (xs rest : List Nat) (h : 10 ∉ xs) :
    readLine (xs ++ 10 :: rest) = (xs ++ [10], rest) := by
  induction xs with
  | nil => simp [readLine]
  | cons x xs ih =>
    simp only [List.mem_cons, not_or] at h
    simp only [List.cons_append, readLine]
    rw [if_neg (by omega), ih h.2]

theorem readLine_no_newline (xs : List Nat) (h : 10 ∉ xs) : readLine xs = (xs, []) := by
  induction xs with
  | nil => rfl
  | cons x xs ih =>
    simp only [List.mem_cons, not_or] at h
    simp only [readLine]
    rw [if_neg (by omega), ih h.2]

theorem newline_not_mem_encode {s : List Char} (h : '\n' ∉ s) : 10 ∉ Utf8.encode s := by
  unfold Utf8.encode
  rw [List.mem_flatMap]
  rintro ⟨c, hc, hb⟩
  rcases Utf8.mem_encodeChar hb with ⟨-, h2⟩ | ⟨-, h2⟩
  · apply h
    have : c = '\n' := by
      rw [← Utf8.ofNat_toNat c, ← h2]
    exact this ▸ hc
  · omega

theorem encode_crlf : Utf8.encode "\r\n".toList = [13, 10] := by decide +kernel

theorem readLine_line (l : List Char) (rest : List Nat) (h : '\n' ∉ l) :
    readLine (Utf8.encode (l ++ "\r\n".toList) ++ rest) = (Utf8.encode (l ++ "\r\n".toList), rest) := by
  have e : Utf8.encode (l ++ "\r\n".toList) ++ rest = (Utf8.encode l ++ [13]) ++ 10 :: rest := by
    rw [Utf8.encode_append, encode_crlf]; simp
  rw [e, readLine_append]
  · rw [Utf8.encode_append, encode_crlf]; simp
  · simp only [List.mem_append, List.mem_singleton, not_or]
    exact ⟨newline_not_mem_encode h, by decide⟩

theorem splitColon_cons (c : Char) (r : List Char) (h : ¬ (c = ':' ∧ r.head? = some ' ')) :
    splitColon (c :: r) = (splitColon r).map fun p => (c :: p.1, p.2) := by
  rw [splitColon.eq_2]
  intro r' h1 h2
  exact h ⟨h1, by rw [h2]; rfl⟩

theorem splitColon_line (name value : List Char) (h : ¬ ": ".toList <:+: name) :
    splitColon (line name value) = some (name, value) := by
  unfold line
  induction name with
  | nil => rfl
  | cons c name ih =>
    have hn : ¬ ": ".toList <:+: name := fun hi => h (hi.trans (List.infix_cons List.infix_rfl))
    rw [List.cons_append, List.cons_append, splitColon_cons, ih hn]
    · rfl
    · rintro ⟨rfl, h2⟩
      cases name with
      | nil => simp at h2
      | cons d name =>
        simp only [List.cons_append, List.head?_cons, Option.some.injEq] at h2
        subst h2
        exact h ⟨[], name, rfl⟩

/-- One header line. -/
theorem readHeaders_line (n : Nat) (size : Option Nat) (l : List Char) (rest : List Nat)
    (hne : l ≠ []) (hnl : '\n' ∉ l) :
    readHeaders (n + 1) size (Utf8.encode (l ++ "\r\n".toList) ++ rest) =
      match splitColon l with
      | none => .err
      | some (name, value) =>
        if eqIgnoreCase name "Content-Length".toList then
          match RustNum.parse 10 usizeMax value with
          | none => .err
          | some sz => readHeaders n (some sz) rest
        else readHeaders n size rest := by
  have hl0 : Utf8.encode (l ++ "\r\n".toList) ≠ [] := by
    rw [Utf8.encode_append, encode_crlf]; simp
  have htake : (l ++ "\r\n".toList).take ((l ++ "\r\n".toList).length - 2) = l := by
    have : (l ++ "\r\n".toList).length - 2 = l.length := by simp
    rw [this, List.take_left]
  have hsuf : "\r\n".toList.isSuffixOf (l ++ "\r\n".toList) = true := by
    rw [List.isSuffixOf_iff_suffix]; exact List.suffix_append _ _
  simp only [readHeaders, readLine_line l rest hnl, if_neg hl0, Utf8.decode_encode, hsuf, not_true,
    if_false, htake, if_neg hne]
  cases splitColon l with
  | none => rfl
  | some p =>
    obtain ⟨name, value⟩ := p
    simp only []
    split
    · cases RustNum.parse 10 usizeMax value <;> rfl
    · rfl

/-- The empty line ends the headers. -/
theorem readHeaders_end (n : Nat) (size : Option Nat) (rest : List Nat) :
    readHeaders (n + 1) size (Utf8.encode "\r\n".toList ++ rest) = .done size rest := by
  have h := readLine_line [] rest (by simp)
  simp only [List.nil_append] at h
  have hl0 : Utf8.encode "\r\n".toList ≠ [] := by rw [encode_crlf]; simp
  have hsuf : "\r\n".toList.isSuffixOf "\r\n".toList = true := by decide
  have htake : "\r\n".toList.take ("\r\n".toList.length - 2) = [] := by decide
  simp only [readHeaders, h, if_neg hl0, Utf8.decode_encode, hsuf, not_true, if_false, htake, if_true]

theorem lower_eq : lower = Char.toLower := by
  funext c
  by_cases h : 'A'.toNat ≤ c.toNat ∧ c.toNat ≤ 'Z'.toNat
  · have h2 : ∀ n, n < 91 → 65 ≤ n → lower (Char.ofNat n) = (Char.ofNat n).toLower := by decide
    have h3 := h2 c.toNat (by have := h.2; simp at this; omega) (by have := h.1; simp at this; omega)
    rwa [Char.ofNat_toNat] at h3
  · unfold lower
    rw [if_neg h]
    unfold Char.toLower
    rw [dif_neg]
    intro h'
    exact h ⟨h'.1, h'.2⟩

theorem extra_step (n : Nat) (size : Option Nat) (h : ExtraHeader) (hok : h.Ok) (rest : List Nat) :
    readHeaders (n + 1) size (Utf8.encode (line h.name h.value ++ "\r\n".toList) ++ rest) =
      readHeaders n size rest := by
  obtain ⟨h1, h2, h3, h4⟩ := hok
  rw [← lower_eq] at h1
  have hnl : '\n' ∉ line h.name h.value := by
    unfold line
    simp only [List.mem_append, not_or]
    exact ⟨⟨h3, by decide⟩, h4⟩
  have hne : line h.name h.value ≠ [] := by unfold line; simp
  rw [readHeaders_line n size _ rest hne hnl, splitColon_line _ _ h2]
  have : eqIgnoreCase h.name "Content-Length".toList = false := by
    unfold eqIgnoreCase
    rw [show "Content-Length".toList.map lower = "content-length".toList by decide]
    exact beq_eq_false_iff_ne.mpr h1
  simp only [this, Bool.false_eq_true, if_false]

theorem extra_steps (hs : List ExtraHeader) (hok : ∀ h ∈ hs, h.Ok) (n : Nat) (size : Option Nat)
    (rest : List Nat) :
    readHeaders (n + hs.length) size
      (((hs.map fun h => line h.name h.value).flatMap fun l => Utf8.encode (l ++ "\r\n".toList)) ++ rest) =
      readHeaders n size rest := by
  induction hs generalizing n with
  | nil => rfl
  | cons h hs ih =>
    simp only [List.mem_cons, forall_eq_or_imp] at hok
    simp only [List.map_cons, List.flatMap_cons, List.length_cons, List.append_assoc]
    rw [show n + (hs.length + 1) = (n + hs.length) + 1 by omega, extra_step _ _ _ hok.1, ih hok.2]

theorem length_step (n : Nat) (size : Option Nat) (name : List Char) (k : Nat) (hk : k ≤ usizeMax)
    (hname : name.map lower = "content-length".toList) (rest : List Nat) :
    readHeaders (n + 1) size (Utf8.encode (line name (RustNum.print 10 k) ++ "\r\n".toList) ++ rest) =
      readHeaders n (some k) rest := by
  have hdig : '\n' ∉ RustNum.print 10 k := by
    intro hm
    obtain ⟨d, hd, he⟩ := RustNum.mem_print (b := 10) (by omega) k _ hm
    have : ∀ d < 10, '\n' ≠ RustNum.digitChar d := by decide
    exact this d hd he
  have hlow : ∀ c : Char, c ∈ name → lower c ∈ "content-length".toList := by
    intro c hc; rw [← hname]; exact List.mem_map_of_mem hc
  have hnn : '\n' ∉ name := fun h => absurd (hlow _ h) (by decide)
  have hsp : ' ' ∉ name := fun h => absurd (hlow _ h) (by decide)
  have hin : ¬ ": ".toList <:+: name := by
    intro h
    exact hsp (h.subset (by decide))
  have hnl : '\n' ∉ line name (RustNum.print 10 k) := by
    unfold line
    simp only [List.mem_append, not_or]
    exact ⟨⟨hnn, by decide⟩, hdig⟩
  have hne : line name (RustNum.print 10 k) ≠ [] := by unfold line; simp
  rw [readHeaders_line n size _ rest hne hnl, splitColon_line _ _ hin]
  have : eqIgnoreCase name "Content-Length".toList = true := by
    unfold eqIgnoreCase
    rw [show "Content-Length".toList.map lower = "content-length".toList by decide, hname]
    decide
  simp only [this, if_true, RustNum.parse_print (b := 10) (by omega) (by omega) _ _ hk]

theorem encode_length_pos_line (l : List Char) : 2 ≤ (Utf8.encode (l ++ "\r\n".toList)).length := by
  rw [Utf8.encode_append, encode_crlf]; simp

/-- More fuel does not change a non-error result; here: enough fuel for the number of lines. -/
theorem flat_length (ls : List (List Char)) :
    ls.length ≤ (ls.flatMap fun l => Utf8.encode (l ++ "\r\n".toList)).length := by
  induction ls with
  | nil => simp
  | cons l ls ih =>
    have := encode_length_pos_line l
    simp only [List.flatMap_cons, List.length_append, List.length_cons]
    omega

theorem readMsg_frame (pre post : List ExtraHeader) (hpre : ∀ h ∈ pre, h.Ok) (hpost : ∀ h ∈ post, h.Ok)
    (name : List Char) (hname : name.map lower = "content-length".toList) (body : List Char)
    (hlen : (Utf8.encode body).length ≤ usizeMax) (rest : List Nat) :
    readMsg (frame ((pre.map fun h => line h.name h.value) ++
        [line name (RustNum.print 10 (Utf8.encode body).length)] ++
        (post.map fun h => line h.name h.value)) body ++ rest) = .msg body rest := by
  unfold readMsg
  generalize hk : (Utf8.encode body).length = k at hlen
  have hfuel : ∃ m, (frame ((pre.map fun h => line h.name h.value) ++
        [line name (RustNum.print 10 k)] ++
        (post.map fun h => line h.name h.value)) body ++ rest).length + 1 = m + 1 + post.length + 1 + pre.length := by
    refine ⟨(frame ((pre.map fun h => line h.name h.value) ++
        [line name (RustNum.print 10 k)] ++
        (post.map fun h => line h.name h.value)) body ++ rest).length - (pre.length + post.length + 1), ?_⟩
    have := flat_length ((pre.map fun h => line h.name h.value) ++
        [line name (RustNum.print 10 k)] ++ (post.map fun h => line h.name h.value))
    simp only [List.length_append, List.length_map, List.length_singleton] at this
    simp only [frame, List.length_append, encode_crlf, List.length_cons, List.length_nil]
    simp only [List.flatMap_append, List.length_append] at this ⊢
    omega
  obtain ⟨m, hm⟩ := hfuel
  rw [hm]
  simp only [frame, List.flatMap_append, List.append_assoc]
  rw [extra_steps pre hpre]
  simp only [List.flatMap_cons, List.flatMap_nil, List.append_nil]
  rw [length_step _ _ _ _ hlen hname, extra_steps post hpost, readHeaders_end]
  simp only [List.length_append, hk]
  rw [if_neg (by omega), ← hk, List.take_left, List.drop_left, Utf8.decode_encode]

theorem writeMsg_eq (m : List Char) :
    writeMsg m = frame [line "Content-Length".toList (RustNum.print 10 (Utf8.encode m).length)] m := by
  unfold writeMsg frame line
  simp only [List.flatMap_cons, List.flatMap_nil, List.append_nil]
  simp only [Utf8.encode_append]
  have e1 : "Content-Length: ".toList = "Content-Length".toList ++ ": ".toList := by decide
  have e2 : "\r\n\r\n".toList = "\r\n".toList ++ "\r\n".toList := by decide
  rw [e1, e2]
  simp only [Utf8.encode_append, List.append_assoc]

theorem readMsg_writeMsg (m : List Char) (h : (Utf8.encode m).length ≤ usizeMax) (rest : List Nat) :
    readMsg (writeMsg m ++ rest) = .msg m rest := by
  rw [writeMsg_eq]
  exact readMsg_frame [] [] (by simp) (by simp) "Content-Length".toList (by decide) m h rest

end Tinymist.Framing
