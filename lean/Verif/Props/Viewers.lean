import Verif.Lemmas.Viewers
import Verif.Props.Framing

/-!
# C139: the viewers of a preview
-/
namespace Tinymist.Viewers
open Spec

variable {F P L : Type} {rd : Reads F P L} {sh : F → Text}

/-! ## What viewers say -/

/-- Every message of the protocol is understood. -/
theorem understood {m : Text} {r : Req F P L} (h : Says rd m r) : onFrame rd (.text m) = .asks r := by
  rw [onFrame]
  cases h with
  | current => exact onText_current rd
  | source span hw =>
    rw [show "srclocation ".toList ++ span = "srclocation".toList ++ ' ' :: span from rfl,
      onText_source rd ⟨' ' :: span, rfl⟩,
      splitOn_append (by decide), splitOn_not_mem (fun hm => by have := hw _ hm; rw [space_ws] at this; cases this)]
    simp only [List.getElem?_cons_succ, List.getElem?_cons_zero]
    rw [trim_word hw]
  | page n hn =>
    rw [show "outline-sync,".toList ++ RustNum.print 10 n = "outline-sync".toList ++ ',' :: RustNum.print 10 n from rfl,
      onText_outline rd ⟨',' :: RustNum.print 10 n, rfl⟩, outlineSync,
      splitOn_append (by decide), splitOn_not_mem print_no_comma]
    simp only [List.getElem?_cons_succ, List.getElem?_cons_zero, splitOn_not_mem (print_no_space (n := n)),
      List.getElem?_nil, parse_page hn, coordinate]
  | place n tx ty x y hn hx hy h1 h2 h3 h4 =>
    have e : "outline-sync,".toList ++ RustNum.print 10 n ++ ' ' :: tx ++ ' ' :: ty =
        "outline-sync".toList ++ ',' :: (RustNum.print 10 n ++ ' ' :: (tx ++ ' ' :: ty)) := by
      rw [show "outline-sync,".toList = "outline-sync".toList ++ [','] from rfl]
      simp only [List.append_assoc, List.cons_append, List.nil_append]
    have hc : ',' ∉ RustNum.print 10 n ++ ' ' :: (tx ++ ' ' :: ty) := by
      intro hm
      simp only [List.mem_append, List.mem_cons] at hm
      rcases hm with hm | hm | hm | hm | hm
      · exact print_no_comma hm
      · exact absurd hm (by decide)
      · exact h2 hm
      · exact absurd hm (by decide)
      · exact h4 hm
    rw [e, onText_outline rd ⟨_, rfl⟩, outlineSync, splitOn_append (by decide), splitOn_not_mem hc]
    simp only [List.getElem?_cons_succ, List.getElem?_cons_zero, splitOn_append (print_no_space (n := n)),
      splitOn_append h1, splitOn_not_mem h3, parse_page hn, coordinate, hx, hy]
  | path t p ht hp =>
    rw [show "srcpath ".toList ++ t = "srcpath".toList ++ ' ' :: t from rfl, onText_path rd ⟨' ' :: t, rfl⟩, askJson,
      splitOn_append (by decide), splitOn_not_mem ht]
    simp only [List.getElem?_cons_succ, List.getElem?_cons_zero, hp]
  | point t l ht hl =>
    rw [show "src-point ".toList ++ t = "src-point".toList ++ ' ' :: t from rfl, onText_point rd ⟨' ' :: t, rfl⟩, askJson,
      splitOn_append (by decide), splitOn_not_mem ht]
    simp only [List.getElem?_cons_succ, List.getElem?_cons_zero, hl]

/-- A message that does not begin with a word of the protocol ends the connection; no other text does so in order. -/
theorem unknown_ends (m : Text) : onFrame rd (.text m) = .ends ↔ ¬ Known m := by
  rw [onFrame]
  constructor
  · rintro h (rfl | ⟨k, hk, hm⟩)
    · rw [onText_current] at h; cases h
    · simp only [keywords, List.mem_cons, List.not_mem_nil, or_false] at hk
      rcases hk with rfl | rfl | rfl | rfl
      · rw [onText_source rd hm] at h; split at h <;> cases h
      · rw [onText_outline rd hm, outlineSync] at h
        split at h
        · cases h
        · split at h
          · cases h
          · split at h <;> cases h
      · rw [onText_path rd hm, askJson] at h
        split at h
        · cases h
        · split at h <;> cases h
      · rw [onText_point rd hm, askJson] at h
        split at h
        · cases h
        · split at h <;> cases h
  · intro h
    have hk : ∀ k ∈ keywords, ¬ startsWith k m = true := fun k hk hs => h (Or.inr ⟨k, hk, startsWith_iff.mp hs⟩)
    rw [onText, if_neg (fun e => h (Or.inl e)), if_neg (hk _ (by simp [keywords])), if_neg (hk _ (by simp [keywords])),
      if_neg (hk _ (by simp [keywords])), if_neg (hk _ (by simp [keywords]))]

/-- A message without its argument makes the actor panic. -/
theorem no_argument_panics {m : Text} (h : NoArgument m) : onFrame rd (.text m) = .panics := by
  rw [onFrame]
  rcases h with ⟨h | h | h, hs⟩ | ⟨h, hc⟩
  · rw [onText_source rd h, splitOn_second_none.mpr hs]
  · rw [onText_path rd h, askJson, splitOn_second_none.mpr hs]
  · rw [onText_point rd h, askJson, splitOn_second_none.mpr hs]
  · rw [onText_outline rd h, outlineSync, splitOn_second_none.mpr hc]

/-- A path is cut at its first space: what comes after it is not seen. -/
theorem path_cut {a : Text} (b : Text) (h : ' ' ∉ a) :
    onFrame rd (.text ("srcpath ".toList ++ a ++ ' ' :: b)) = onFrame rd (.text ("srcpath ".toList ++ a)) := by
  have e : "srcpath ".toList ++ a ++ ' ' :: b = "srcpath".toList ++ ' ' :: (a ++ ' ' :: b) := by
    rw [show "srcpath ".toList = "srcpath".toList ++ [' '] from rfl]
    simp only [List.append_assoc, List.cons_append, List.nil_append]
  rw [onFrame, onFrame, e, onText_path rd ⟨_, rfl⟩,
    show "srcpath ".toList ++ a = "srcpath".toList ++ ' ' :: a from rfl, onText_path rd ⟨_, rfl⟩, askJson, askJson,
    splitOn_append (a := "srcpath".toList) (by decide), splitOn_append (a := "srcpath".toList) (by decide),
    splitOn_append h, splitOn_not_mem h]
  rfl

/-! ## What the page is told -/

/-- Of the positions the page is sent, it goes to the last of those on the pages nearest to its own. -/
theorem jump_nearest (hp : Prints rd sh) (hn : rd.float [] = none) {ps : List (Pos F)} (hne : ps ≠ [])
    (hs : ∀ p ∈ ps, p.page < 2 ^ 53 - 1) {cur : Nat} (hcur : cur < 2 ^ 52) :
    ∃ pre r post, ps = pre ++ r :: post ∧ jumpTo rd cur (positionsReq sh "jump".toList ps) = some r ∧
      (∀ p ∈ pre, apart r.page cur ≤ apart p.page cur) ∧ ∀ p ∈ post, apart r.page cur < apart p.page cur := by
  have hsafe : ∀ p ∈ ps, p.page ≤ maxSafe := fun p h => by have := hs p h; unfold maxSafe; omega
  have key := choose_spec hp cur ps hsafe ⟨maxSafe, rd.zero, rd.zero⟩
  simp only at key
  rw [jumpTo, positionsReq, cutComma_append (by decide)]
  simp only [true_or, if_true, pieces_positions hp hn hne]
  rw [choose]
  rcases key with ⟨_, h2⟩ | ⟨pre, post, h1, _, h3, h4⟩
  · exfalso
    cases ps with
    | nil => exact hne rfl
    | cons p ps =>
      have a := h2 p (List.mem_cons_self ..)
      have b := hs p (List.mem_cons_self ..)
      unfold dist maxSafe at a
      omega
  · refine ⟨pre, _, post, h1, ?_, ?_, ?_⟩
    · refine if_neg ?_
      intro e
      have := hs _ (by rw [h1]; exact List.mem_append_right _ (List.mem_cons_self ..))
      exact absurd e (Nat.ne_of_lt this)
    · intro p h; have := h3 p h; rwa [dist_apart, dist_apart] at this
    · intro p h; have := h4 p h; rwa [dist_apart, dist_apart] at this

/-- When a viewer asks for a page, the pages of all viewers go there. -/
theorem viewport_goes (hp : Prints rd sh) (hn : rd.float [] = none) (p : Pos F) (hs : p.page < 2 ^ 53 - 1) {cur : Nat}
    (hcur : cur < 2 ^ 52) : jumpTo rd cur (positionReq sh "viewport".toList p) = some p := by
  have key := pieces_positions hp hn (ps := [p]) (by simp)
  simp only [List.map_cons, List.map_nil, joinComma] at key
  rw [jumpTo, positionReq, cutComma_append (by decide)]
  have hc : choose rd cur [posText sh p] = p := by
    rw [choose, List.foldl_cons, List.foldl_nil, readPos_posText hp p (by unfold maxSafe; omega)]
    simp only
    rw [if_pos]
    unfold dist maxSafe
    omega
  simp only [or_true, if_true, key, hc]
  rw [if_neg]
  unfold maxSafe
  omega

/-! ## The server and its viewers -/

/-- A server that shuts down because it is idle has no viewer. -/
theorem idle_only_alone {c : Bool} {es : List Event} {s s' : State} (h : Happens rd c es s)
    (hi : step rd s .idle = some s') : s'.shutDown = true ∧ ∀ i, ¬ Present s' i := by
  have inv := inv_happens h
  unfold Inv at inv
  simp only [step] at hi
  split at hi
  · rename_i hc
    simp only [Bool.and_eq_true, beq_iff_eq] at hc
    cases hi
    refine ⟨rfl, fun i hp => ?_⟩
    have h0 : s.conns.countP isCounted = 0 := by omega
    rw [List.countP_eq_zero] at h0
    rcases hp with hp | hp
    · exact h0 _ (List.mem_of_getElem? hp) rfl
    · exact h0 _ (List.mem_of_getElem? hp) rfl
  · cases hi

/-- A server only ever shuts down by itself if it was asked to when idle. -/
theorem shut_down_asked {c : Bool} {es : List Event} {s : State} (h : Happens rd c es s) (hd : s.shutDown = true) :
    c = true ∧ .idle ∈ es := by
  have key : ∀ (es : List Event) (t : State), run rd t es = some s → (t.shutDown = true ∨ (t.canIdle = true ∧ .idle ∈ es)) := by
    intro es
    induction es with
    | nil => intro t ht; cases ht; exact Or.inl hd
    | cons e es ih =>
      intro t ht
      rw [run] at ht
      cases hst : step rd t e with
      | none => rw [hst] at ht; cases ht
      | some u =>
        rw [hst] at ht
        rcases ih u ht with hu | ⟨h1, h2⟩
        · cases e with
          | idle =>
            refine Or.inr ⟨?_, List.mem_cons_self ..⟩
            simp only [step] at hst
            split at hst
            · rename_i hc
              simp only [Bool.and_eq_true, beq_iff_eq] at hc
              exact hc.1.2
            · cases hst
          | _ =>
            left
            simp only [step] at hst
            split at hst <;> first | (cases hst; exact hu) | (split at hst <;> cases hst <;> exact hu) | cases hst
        · exact Or.inr ⟨by rw [← canIdle_step hst]; exact h1, List.mem_cons_of_mem _ h2⟩
  rcases key es (start c) h with hk | hk
  · cases hk
  · exact hk

theorem no_lost_step {s s' : State} {e : Event} (h0 : Phase.lost ∉ s.conns) (he : ∀ i, e ≠ .upgraded i false)
    (h : step rd s e = some s') : Phase.lost ∉ s'.conns := by
  cases e with
  | upgraded i ok =>
    cases ok with
    | false => exact absurd rfl (he i)
    | true =>
      simp only [step] at h
      split at h
      · cases h
        intro hm
        rcases List.mem_or_eq_of_mem_set hm with hm | hm
        · exact h0 hm
        · cases hm
      · cases h
  | frame i f =>
    simp only [step] at h
    split at h
    · split at h
      · cases h; exact h0
      · cases h
        intro hm
        rcases List.mem_or_eq_of_mem_set hm with hm | hm
        · exact h0 hm
        · cases hm
    · cases h
  | connect =>
    simp only [step] at h
    split at h
    · cases h
      simp [h0]
    · cases h
  | noted =>
    simp only [step] at h
    split at h
    · cases h; exact h0
    · cases h
  | idle =>
    simp only [step] at h
    split at h
    · cases h; exact h0
    · cases h
  | stop =>
    simp only [step] at h
    split at h
    · cases h; exact h0
    · cases h

theorem no_lost_run {s s' : State} {es : List Event} (h0 : Phase.lost ∉ s.conns)
    (he : ∀ i, .upgraded i false ∉ es) (h : run rd s es = some s') : Phase.lost ∉ s'.conns := by
  induction es generalizing s with
  | nil => cases h; exact h0
  | cons e es ih =>
    rw [run] at h
    cases hst : step rd s e with
    | none => rw [hst] at h; cases h
    | some u =>
      rw [hst] at h
      exact ih (no_lost_step h0 (fun i hi => he i (hi ▸ List.mem_cons_self ..)) hst)
        (fun i hi => he i (List.mem_cons_of_mem _ hi)) h

/-- If no connection failed to be upgraded, a server without viewers shuts down once it read that they are gone.
Partial: with a failed upgrade it does not, see `failed_never_idle`. -/
theorem idle_when_alone_partial {es : List Event} {s : State} (h : Happens rd true es s) (hup : s.up = true)
    (hok : ∀ i, .upgraded i false ∉ es) (hal : ∀ i, ¬ Present s i) :
    ∃ s', run rd s (List.replicate s.notes .noted ++ [.idle]) = some s' ∧ s'.shutDown = true := by
  have inv := inv_happens h
  have hl := no_lost_run (by simp [start]) hok h
  have hcan : s.canIdle = true :=
    run_ind (Q := fun s => s.canIdle = true) (fun s e s' hq hs => by rw [canIdle_step hs]; exact hq) rfl h
  have h0 : s.conns.countP isCounted = 0 := by
    rw [List.countP_eq_zero]
    intro p hp hc
    obtain ⟨i, hi, rfl⟩ := List.getElem_of_mem hp
    cases hph : s.conns[i] with
    | opening => exact hal i (Or.inl (by rw [List.getElem?_eq_getElem hi, hph]))
    | isOpen => exact hal i (Or.inr (by rw [List.getElem?_eq_getElem hi, hph]))
    | ended => rw [hph] at hc; cases hc
    | lost => rw [hph] at hp; exact hl hp
  unfold Inv at inv
  have ha : s.alive = s.notes := by omega
  clear inv h hal hl hok h0
  generalize hn : s.notes = n
  induction n generalizing s with
  | zero =>
    refine ⟨{ s with up := false, shutDown := true }, ?_, rfl⟩
    simp only [List.replicate_zero, List.nil_append, run, step, hup, hcan]
    rw [hn] at ha
    simp [ha]
  | succ n ih =>
    rw [List.replicate_succ, List.cons_append, run]
    simp only [step, hup, hn]
    simp only [Bool.true_and, Nat.zero_lt_succ, decide_true, if_true, Option.bind_some, Nat.add_sub_cancel]
    have key := ih (s := { s with alive := s.alive - 1, notes := n }) hup hcan (by simp only; omega) rfl
    rw [hup] at key
    exact key

theorem lost_step {s s' : State} {e : Event} {i : Nat} (h0 : s.conns[i]? = some .lost) (h : step rd s e = some s') :
    s'.conns[i]? = some .lost := by
  have setKeeps : ∀ (j : Nat) (a b : Phase), s.conns[j]? = some a → a ≠ .lost → (s.conns.set j b)[i]? = some .lost := by
    intro j a b hj hne
    rw [List.getElem?_set_ne, h0]
    rintro rfl
    rw [h0] at hj
    exact hne (Option.some.inj hj).symm
  cases e with
  | connect =>
    simp only [step] at h
    split at h
    · cases h
      have hi : i < s.conns.length := by
        rcases Nat.lt_or_ge i s.conns.length with hi | hi
        · exact hi
        · rw [List.getElem?_eq_none hi] at h0; cases h0
      simp only
      rw [List.getElem?_append_left hi, h0]
    · cases h
  | upgraded j ok =>
    simp only [step] at h
    split at h
    · rename_i hc; cases h; exact setKeeps j _ _ hc (by simp)
    · cases h
  | frame j f =>
    simp only [step] at h
    split at h
    · rename_i hc
      split at h
      · cases h; exact h0
      · cases h; exact setKeeps j _ _ hc (by simp)
    · cases h
  | noted =>
    simp only [step] at h
    split at h
    · cases h; exact h0
    · cases h
  | idle =>
    simp only [step] at h
    split at h
    · cases h; exact h0
    · cases h
  | stop =>
    simp only [step] at h
    split at h
    · cases h; exact h0
    · cases h

/-- Once a connection failed to be upgraded, the server never shuts down for being idle, whatever comes after. -/
theorem failed_never_idle {c : Bool} {es fs : List Event} {i : Nat} {s s' : State}
    (h : Happens rd c (es ++ .upgraded i false :: fs) s) : step rd s .idle ≠ some s' := by
  intro hi
  have inv := inv_happens h
  unfold Happens at h
  have hrun : ∀ (a b : List Event) (t u : State), run rd t (a ++ b) = some u → ∃ v, run rd t a = some v ∧ run rd v b = some u := by
    intro a
    induction a with
    | nil => intro b t u ht; exact ⟨t, rfl, ht⟩
    | cons e a ih =>
      intro b t u ht
      rw [List.cons_append, run] at ht
      cases hst : step rd t e with
      | none => rw [hst] at ht; cases ht
      | some v =>
        rw [hst] at ht
        obtain ⟨w, h1, h2⟩ := ih b v u ht
        exact ⟨w, by rw [run, hst]; exact h1, h2⟩
  obtain ⟨v, _, h2⟩ := hrun _ _ _ _ h
  rw [run] at h2
  cases hst : step rd v (.upgraded i false) with
  | none => rw [hst] at h2; cases h2
  | some u =>
    rw [hst] at h2
    have hl : u.conns[i]? = some .lost := by
      simp only [step] at hst
      split at hst
      · rename_i hc
        cases hst
        have hi : i < v.conns.length := by
          rcases Nat.lt_or_ge i v.conns.length with hi | hi
          · exact hi
          · rw [List.getElem?_eq_none hi] at hc; cases hc
        simp only [Bool.false_eq_true, if_false]
        rw [List.getElem?_set_self hi]
      · cases hst
    have hs : s.conns[i]? = some .lost :=
      run_ind (Q := fun s => s.conns[i]? = some .lost) (fun _ _ _ hq hs => lost_step hq hs) hl h2
    simp only [step] at hi
    split at hi
    · rename_i hc
      simp only [Bool.and_eq_true, beq_iff_eq] at hc
      have hpos : 0 < s.conns.countP isCounted := List.countP_pos_iff.mpr ⟨_, List.mem_of_getElem? hs, rfl⟩
      unfold Inv at inv
      omega
    · cases hi

/-- A viewer that is served stays so through everything but its own frames, and through its own frames as long as these
are messages of the protocol. -/
theorem viewer_stays {s s' : State} {e : Event} {i : Nat} (ho : s.conns[i]? = some .isOpen)
    (he : ∀ f, e = .frame i f → ∃ m r, f = .text m ∧ Says rd m r) (h : step rd s e = some s') :
    s'.conns[i]? = some .isOpen := by
  have setKeeps : ∀ (j : Nat) (b : Phase), j ≠ i → (s.conns.set j b)[i]? = some .isOpen := by
    intro j b hj
    rw [List.getElem?_set_ne hj, ho]
  cases e with
  | connect =>
    simp only [step] at h
    split at h
    · cases h
      have hi : i < s.conns.length := by
        rcases Nat.lt_or_ge i s.conns.length with hi | hi
        · exact hi
        · rw [List.getElem?_eq_none hi] at ho; cases ho
      simp only
      rw [List.getElem?_append_left hi, ho]
    · cases h
  | upgraded j ok =>
    simp only [step] at h
    split at h
    · rename_i hc
      cases h
      refine setKeeps j _ ?_
      rintro rfl
      rw [ho] at hc
      cases hc
    · cases h
  | frame j f =>
    simp only [step] at h
    split at h
    · split at h
      · cases h; exact ho
      · rename_i hg
        cases h
        refine setKeeps j _ ?_
        rintro rfl
        obtain ⟨m, r, rfl, hs⟩ := he f rfl
        rw [understood hs] at hg
        exact hg rfl
    · cases h
  | noted =>
    simp only [step] at h
    split at h
    · cases h; exact ho
    · cases h
  | idle =>
    simp only [step] at h
    split at h
    · cases h; exact ho
    · cases h
  | stop =>
    simp only [step] at h
    split at h
    · cases h; exact ho
    · cases h

/-- A ping ends the connection of the viewer that sends it. -/
theorem ping_ends {s : State} {i : Nat} (ho : s.conns[i]? = some .isOpen) :
    ∃ s', step rd s (.frame i .ping) = some s' ∧ s'.conns[i]? = some .ended := by
  have hn : onFrame rd .ping = .ends := by
    have := (unknown_ends (rd := rd) "unsupported message".toList).mpr (by
      rintro (h | ⟨k, hk, hm⟩)
      · exact absurd h (by decide)
      · simp only [keywords, List.mem_cons, List.not_mem_nil, or_false] at hk
        rcases hk with rfl | rfl | rfl | rfl <;> exact absurd hm (by decide))
    exact this
  refine ⟨{ s with conns := s.conns.set i .ended, notes := s.notes + 1 }, ?_, ?_⟩
  · simp only [step, ho, hn, goesOn, if_true, Bool.false_eq_true, if_false]
  · have hi : i < s.conns.length := by
      rcases Nat.lt_or_ge i s.conns.length with hi | hi
      · exact hi
      · rw [List.getElem?_eq_none hi] at ho; cases ho
    simp only
    rw [List.getElem?_set_self hi]

/-- A page number that is too large for the machine ends the actor. -/
theorem big_page_panics {n : Nat} (hn : 2 ^ 64 ≤ n) : onFrame rd (.text ("outline-sync,".toList ++ RustNum.print 10 n)) = .panics := by
  have e : "outline-sync,".toList ++ RustNum.print 10 n = "outline-sync".toList ++ ',' :: RustNum.print 10 n := rfl
  have hp : RustNum.parse 10 usizeMax (RustNum.print 10 n) = none := by
    have hb := Framing.parseDigits_big (max := usizeMax) (n := n) (by unfold usizeMax; omega)
    obtain ⟨c, cs, hc⟩ := List.exists_cons_of_ne_nil (RustNum.print_ne_nil (b := 10) (by decide) n)
    have hplus : c ≠ '+' := by
      rintro rfl
      obtain ⟨d, hd, hd'⟩ := RustNum.mem_print (b := 10) (by decide) n '+' (by rw [hc]; exact List.mem_cons_self ..)
      have : ∀ d < 10, '+' ≠ RustNum.digitChar d := by decide
      exact this d hd hd'
    rw [hc] at hb ⊢
    unfold RustNum.parse
    split
    · rfl
    · rfl
    · rename_i h
      injection h with h _
      exact absurd h hplus
    · exact hb
  rw [onFrame, e, onText_outline rd ⟨_, rfl⟩, outlineSync, splitOn_append (by decide), splitOn_not_mem print_no_comma]
  simp only [List.getElem?_cons_succ, List.getElem?_cons_zero]
  rw [splitOn_not_mem print_no_space]
  simp only [List.getElem?_cons_zero, hp]

/-- The server runs until it is stopped or idle. -/
theorem up_until {c : Bool} {es : List Event} {s : State} (h : Happens rd c es s) : s.up = true ↔ .stop ∉ es ∧ .idle ∉ es := by
  have key : ∀ (es : List Event) (t : State), run rd t es = some s → (s.up = true ↔ t.up = true ∧ .stop ∉ es ∧ .idle ∉ es) := by
    intro es
    induction es with
    | nil =>
      intro t ht
      cases ht
      simp
    | cons e es ih =>
      intro t ht
      rw [run] at ht
      obtain ⟨u, hu, ht⟩ := Option.bind_eq_some_iff.1 ht
      rw [ih u ht]
      cases e <;> simp only [step] at hu <;> (repeat' split at hu) <;> cases hu <;> simp_all
  have := key es (start c) h
  simpa [start] using this

/-- While the server runs, and only then, viewers may come, and it may be stopped. -/
theorem comes_while_up (s : State) : (s.up = true → ∃ s', step rd s .connect = some s' ∧ Present s' s.conns.length) ∧
    (s.up = false → step rd s .connect = none) ∧ ((step rd s .stop).isSome = s.up) := by
  refine ⟨fun h => ?_, fun h => ?_, ?_⟩
  · refine ⟨_, by rw [step, if_pos h], .inl ?_⟩
    simp
  · rw [step, if_neg (by rw [h]; decide)]
  · rw [step]
    cases s.up <;> rfl

/-! ## Cases -/

/-- Floats are whole numbers, printed in decimal; paths are texts. -/
def demo : Reads Nat Text Text where
  float := RustNum.parse 10 (2 ^ 200)
  zero := 0
  path := some
  point := some

example : Says demo "srclocation 1a2b".toList (.jumpToSource "1a2b".toList) :=
  .source "1a2b".toList (by decide)

example : onFrame demo (.text "outline-sync,3 10 20".toList) = .asks (.viewport ⟨3, 10, 20⟩) := by decide +kernel

example : NoArgument "srclocation".toList := Or.inl ⟨Or.inl (List.prefix_refl _), by decide⟩

example : ¬ Known "hello".toList := by
  rintro (h | ⟨k, hk, hm⟩)
  · exact absurd h (by decide)
  · simp only [keywords, List.mem_cons, List.not_mem_nil, or_false] at hk
    rcases hk with rfl | rfl | rfl | rfl <;> exact absurd hm (by decide)

/-- The hypotheses about printing can be met. -/
example : ∃ (rd : Reads Bool Text Text) (sh : Bool → Text), Prints rd sh ∧ rd.float [] = none :=
  ⟨{ float := fun t => if t = ['1'] then some true else if t = ['0'] then some false else none, zero := false,
     path := some, point := some }, fun b => if b then ['1'] else ['0'],
   ⟨by decide, by decide⟩, rfl⟩

/-- Numbers below the bound print as what is read. -/
example : jumpTo demo 5 (positionsReq (RustNum.print 10) "jump".toList [⟨1, 0, 0⟩, ⟨4, 3, 7⟩, ⟨6, 8, 9⟩, ⟨9, 1, 1⟩]) =
    some ⟨6, 8, 9⟩ := by decide +kernel

/-- A viewer comes, looks and goes, and the server shuts down. -/
example : (run demo (start true) [.connect, .upgraded 0 true, .frame 0 (.text "current".toList), .frame 0 .close, .noted, .idle]).map
    (·.shutDown) = some true := by decide +kernel

/-- A viewer fails to come, another comes and goes: the counter is left at one. -/
example : (run demo (start true) [.connect, .upgraded 0 false, .connect, .upgraded 1 true, .frame 1 .close, .noted]).map
    (·.alive) = some 1 := by decide +kernel

end Tinymist.Viewers
