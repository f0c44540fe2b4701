import Verif.Lemmas.Mirror

/-!
# C148: a recorded session can be replayed
-/

namespace Tinymist.Mirror

variable {M : Type} (parse : List Char → Option M) (isExit : M → Bool)

theorem visible_file {bytes : List Nat} {pieces : List (List Nat)} (h : FileIn bytes pieces) : visible (arriving pieces) = bytes := by
  obtain ⟨rfl, h⟩ := h
  unfold visible arriving
  have : pieces.takeWhile (fun c => !c.isEmpty) = pieces := by
    induction pieces with
    | nil => rfl
    | cons c cs ih =>
      rw [List.takeWhile_cons, if_pos, ih fun hm => h (List.mem_cons_of_mem _ hm)]
      cases c with
      | nil => exact absurd (List.mem_cons_self ..) h
      | cons _ _ => rfl
  simp only [this, List.nil_append]

theorem plain_bytes {cap : Nat} (hc : 0 < cap) (n : Nat) (s : Buffered) :
    onBytes parse isExit n (visible s) = ((reader (plain cap) parse isExit n s).1, (reader (plain cap) parse isExit n s).2.1) := by
  obtain ⟨_, _, _, _, h, _⟩ := reader_law (plain_law hc) parse isExit n s
  exact h

/-- Recording does not change what is read: with and without a mirror, the same messages are passed on, and the input ends in the same way,
however it arrives. -/
theorem mirror_transparent {cap : Nat} (hc : 0 < cap) (pieces : List (List Nat)) (n : Nat) :
    (reader (mirrored cap) parse isExit n (recording pieces)).1 = (reader (plain cap) parse isExit n (arriving pieces)).1 ∧
    (reader (mirrored cap) parse isExit n (recording pieces)).2.1 = (reader (plain cap) parse isExit n (arriving pieces)).2.1 := by
  obtain ⟨_, _, _, _, h, _⟩ := reader_law (mirrored_law hc) parse isExit n (recording pieces)
  have h' := plain_bytes parse isExit hc n (arriving pieces)
  have e := h.symm.trans h'
  exact ⟨congrArg Prod.fst e, congrArg Prod.snd e⟩

/-- How input is cut into pieces does not matter. -/
theorem pieces_irrelevant {cap cap' : Nat} (hc : 0 < cap) (hc' : 0 < cap') {bytes : List Nat} {pieces pieces' : List (List Nat)}
    (h : FileIn bytes pieces) (h' : FileIn bytes pieces') (n : Nat) :
    (reader (plain cap) parse isExit n (arriving pieces)).1 = (reader (plain cap') parse isExit n (arriving pieces')).1 ∧
    (reader (plain cap) parse isExit n (arriving pieces)).2.1 = (reader (plain cap') parse isExit n (arriving pieces')).2.1 := by
  have e := plain_bytes parse isExit hc n (arriving pieces)
  have e' := plain_bytes parse isExit hc' n (arriving pieces')
  rw [visible_file h] at e
  rw [visible_file h'] at e'
  exact Prod.mk.inj (e.symm.trans e')

/-- The mirror has the bytes that were read from the input, in order, and no others. -/
theorem mirror_is_input {cap : Nat} (hc : 0 < cap) (pieces : List (List Nat)) (n : Nat) :
    (reader (mirrored cap) parse isExit n (recording pieces)).2.2.mirror <+: pieces.flatten := by
  obtain ⟨w, rest, h1, h2, _⟩ := reader_law (mirrored_law hc) parse isExit n (recording pieces)
  have hw := h2 _ (mirrored_logged cap)
  have hw' : (reader (mirrored cap) parse isExit n (recording pieces)).2.2.mirror = w := hw.trans (List.nil_append _)
  rw [hw']
  have hv : visible (arriving pieces) <+: pieces.flatten := by
    unfold visible arriving
    rw [List.nil_append]
    have : ∀ cs : List (List Nat), (cs.takeWhile (fun c => !c.isEmpty)).flatten <+: cs.flatten := by
      intro cs
      induction cs with
      | nil => exact List.prefix_rfl
      | cons c cs ih =>
        rw [List.takeWhile_cons]
        split
        · rw [List.flatten_cons, List.flatten_cons]
          exact (List.prefix_append_right_inj c).2 ih
        · exact List.nil_prefix
    exact this pieces
  exact List.IsPrefix.trans ⟨rest, h1.symm⟩ hv

/-- Replaying a mirror after the end of a session passes on the same messages, and ends in the same way: at an exit, at the end of the
input, or with an error. -/
theorem replay_same {cap cap' : Nat} (hc : 0 < cap) (hc' : 0 < cap') (pieces : List (List Nat)) (n : Nat) {pieces' : List (List Nat)}
    (hend : (reader (mirrored cap) parse isExit n (recording pieces)).2.1 ≠ .going)
    (h : FileIn (reader (mirrored cap) parse isExit n (recording pieces)).2.2.mirror pieces') (k : Nat) :
    (reader (plain cap') parse isExit (n + k) (arriving pieces')).1 = (reader (mirrored cap) parse isExit n (recording pieces)).1 ∧
    (reader (plain cap') parse isExit (n + k) (arriving pieces')).2.1 = (reader (mirrored cap) parse isExit n (recording pieces)).2.1 := by
  obtain ⟨w, rest, h1, h2, _, _, h5⟩ := reader_law (mirrored_law hc) parse isExit n (recording pieces)
  have hw : (reader (mirrored cap) parse isExit n (recording pieces)).2.2.mirror = w := (h2 _ (mirrored_logged cap)).trans (List.nil_append _)
  have e := plain_bytes parse isExit hc' (n + k) (arriving pieces')
  rw [visible_file h, hw, h5 hend k] at e
  exact ⟨(congrArg Prod.fst e).symm, (congrArg Prod.snd e).symm⟩

/-- While a session goes on, the mirror has the messages that were passed on, and only those, whenever the reader has passed one on and
does not yet read the next one. -/
theorem replay_so_far {cap cap' : Nat} (hc : 0 < cap) (hc' : 0 < cap') (pieces : List (List Nat)) (n : Nat) {pieces' : List (List Nat)}
    (hgo : (reader (mirrored cap) parse isExit n (recording pieces)).2.1 = .going)
    (h : FileIn (reader (mirrored cap) parse isExit n (recording pieces)).2.2.mirror pieces') (k : Nat) :
    (reader (plain cap') parse isExit (n + (k + 1)) (arriving pieces')).1 = (reader (mirrored cap) parse isExit n (recording pieces)).1 ∧
    (reader (plain cap') parse isExit (n + (k + 1)) (arriving pieces')).2.1 = .eof := by
  obtain ⟨w, rest, h1, h2, _, h4, _⟩ := reader_law (mirrored_law hc) parse isExit n (recording pieces)
  have hw : (reader (mirrored cap) parse isExit n (recording pieces)).2.2.mirror = w := (h2 _ (mirrored_logged cap)).trans (List.nil_append _)
  have e := plain_bytes parse isExit hc' (n + (k + 1)) (arriving pieces')
  have e0 : onBytes parse isExit (k + 1) [] = ([], .eof) := rfl
  have h4' := h4 hgo (k + 1) []
  rw [List.append_nil, e0, List.append_nil] at h4'
  rw [visible_file h, hw, h4'] at e
  exact ⟨(congrArg Prod.fst e).symm, (congrArg Prod.snd e).symm⟩

/-! ## Crashes -/

/-- A message in the front part of some bytes is a message of all. -/
theorem readMsg_front {w x rest : List Nat} {t : List Char} (h : Framing.readMsg w = .msg t rest) : Framing.readMsg (w ++ x) = .msg t (rest ++ x) := by
  have hv : visible (arriving [w]) = w := by
    cases w with
    | nil => rfl
    | cons a as => exact visible_file ⟨by simp, by simp⟩
  obtain ⟨w', rest', h1, _, h3⟩ := readText_law (plain_law (cap := 1) (Nat.succ_pos _)) (arriving [w])
  rw [hv] at h1
  cases hr : (readText (plain 1) (arriving [w])).1 with
  | eof =>
    rw [hr] at h3
    obtain ⟨rfl, h3⟩ := h3
    rw [List.append_nil] at h1
    rw [h1, h3] at h
    cases h
  | err =>
    rw [hr] at h3
    rw [h1, h3.2] at h
    cases h
  | text t' =>
    rw [hr] at h3
    have h4 := h3.2 rest'
    rw [← h1, h] at h4
    injection h4 with e1 e2
    subst e1 e2
    rw [h1, List.append_assoc]
    exact h3.2 (rest ++ x)

theorem onBytes_front : ∀ (n : Nat) (w x : List Nat), (onBytes parse isExit n w).1 <+: (onBytes parse isExit n (w ++ x)).1
  | 0, _, _ => List.prefix_rfl
  | n + 1, w, x => by
    unfold onBytes
    cases h : Framing.readMsg w with
    | eof => exact List.nil_prefix
    | err => exact List.nil_prefix
    | msg t rest =>
      rw [readMsg_front h]
      simp only
      cases parse t with
      | none => exact List.prefix_rfl
      | some m =>
        simp only
        split
        · exact List.prefix_rfl
        · exact (List.prefix_cons_inj m).2 (onBytes_front n rest x)

theorem onBytes_more : ∀ (n : Nat) (w : List Nat), (onBytes parse isExit n w).1 <+: (onBytes parse isExit (n + 1) w).1
  | 0, _ => List.nil_prefix
  | n + 1, w => by
    rw [onBytes, onBytes]
    cases h : Framing.readMsg w with
    | eof => exact List.prefix_rfl
    | err => exact List.prefix_rfl
    | msg t rest =>
      simp only
      cases parse t with
      | none => exact List.prefix_rfl
      | some m =>
        simp only
        split
        · exact List.prefix_rfl
        · exact (List.prefix_cons_inj m).2 (onBytes_more n rest)

theorem onBytes_more' (n k : Nat) (w : List Nat) : (onBytes parse isExit n w).1 <+: (onBytes parse isExit (n + k) w).1 := by
  induction k with
  | zero => exact List.prefix_rfl
  | succ k ih => exact ih.trans (onBytes_more parse isExit (n + k) w)

/-- Wherever a session breaks off, its mirror can be replayed: if the mirror has what was read for the messages that were passed on,
and a part of what is read until the end, then the replay begins with the messages that were passed on, and has only messages that
would have been passed on. -/
theorem replay_after_crash {cap cap' : Nat} (hc : 0 < cap) (hc' : 0 < cap') (pieces : List (List Nat)) (n k : Nat) {w : List Nat}
    {pieces' : List (List Nat)} (hgo : (reader (mirrored cap) parse isExit n (recording pieces)).2.1 = .going)
    (h1 : (reader (mirrored cap) parse isExit n (recording pieces)).2.2.mirror <+: w)
    (h2 : w <+: (reader (mirrored cap) parse isExit (n + k) (recording pieces)).2.2.mirror) (h : FileIn w pieces') :
    (reader (mirrored cap) parse isExit n (recording pieces)).1 <+: (reader (plain cap') parse isExit (n + k) (arriving pieces')).1 ∧
    (reader (plain cap') parse isExit (n + k) (arriving pieces')).1 <+: (reader (mirrored cap) parse isExit (n + k) (recording pieces)).1 := by
  have e := plain_bytes parse isExit hc' (n + k) (arriving pieces')
  rw [visible_file h] at e
  rw [← congrArg Prod.fst e]
  obtain ⟨x, rfl⟩ := h1
  constructor
  · obtain ⟨v, rest, _, g2, _, g4, _⟩ := reader_law (mirrored_law hc) parse isExit n (recording pieces)
    have hv : (reader (mirrored cap) parse isExit n (recording pieces)).2.2.mirror = v := (g2 _ (mirrored_logged cap)).trans (List.nil_append _)
    rw [hv, g4 hgo k x]
    exact List.prefix_append _ _
  · obtain ⟨v, rest, g1, g2, g3, _, _⟩ := reader_law (mirrored_law hc) parse isExit (n + k) (recording pieces)
    have hv : (reader (mirrored cap) parse isExit (n + k) (recording pieces)).2.2.mirror = v := (g2 _ (mirrored_logged cap)).trans (List.nil_append _)
    obtain ⟨y, hy⟩ := h2
    rw [hv] at hy
    have := onBytes_front parse isExit (n + k) ((reader (mirrored cap) parse isExit n (recording pieces)).2.2.mirror ++ x) (y ++ rest)
    rw [← List.append_assoc, hy, ← g1, g3] at this
    exact this

/-- But a mirror that is asked for together with a replay is not written. -/
theorem replay_without_mirror (mirror replay : String) (h : replay ≠ "") : source ⟨mirror, replay⟩ = .replay replay := by
  unfold source
  rw [if_pos]
  simp only [String.isEmpty_iff]
  exact h

/-- Without a replay, the mirror is written if there is one. -/
theorem mirror_written (mirror : String) : (mirror ≠ "" → source ⟨mirror, ""⟩ = .mirror mirror) ∧ source ⟨"", ""⟩ = .stdin := by
  refine ⟨fun h => ?_, rfl⟩
  unfold source
  rw [if_neg (by simp), if_neg (by simp only [String.isEmpty_iff]; exact h)]

/-! ## A concrete session -/

/-- Two messages, the second one an exit, and something behind it; the first one arrives in pieces. -/
def pieces : List (List Nat) :=
  ["Content-Len".toList.map Char.toNat, "gth: 2\r\n\r\n{".toList.map Char.toNat, "}Content-Length: 4\r\n\r\nexitrest".toList.map Char.toNat]

example : (reader (mirrored 16) some (fun m => decide (m = "exit".toList)) 5 (recording pieces)).1 = ["{}".toList, "exit".toList] ∧
    (reader (mirrored 16) some (fun m => decide (m = "exit".toList)) 5 (recording pieces)).2.1 = .exit ∧
    (reader (mirrored 16) some (fun m => decide (m = "exit".toList)) 5 (recording pieces)).2.2.mirror =
      "Content-Length: 2\r\n\r\n{}Content-Length: 4\r\n\r\nexit".toList.map Char.toNat ∧
    (reader (mirrored 16) some (fun m => decide (m = "exit".toList)) 1 (recording pieces)).2.1 = .going ∧
    (reader (mirrored 16) some (fun m => decide (m = "exit".toList)) 1 (recording pieces)).1 = ["{}".toList] := by decide +kernel

/-- What was read ahead is not in the mirror after the first message. -/
example : (reader (mirrored 16) some (fun m => decide (m = "exit".toList)) 1 (recording pieces)).2.2.mirror =
    "Content-Length: 2\r\n\r\n{}".toList.map Char.toNat := by decide +kernel

end Tinymist.Mirror
