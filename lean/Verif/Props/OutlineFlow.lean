import Verif.Spec.OutlineFlow

/-!
# The outline in the editor is that of the latest document (C189)
-/

namespace Tinymist.OutlineFlow

variable {D : Type}

theorem stored_append (a b : List (Op D)) : stored (a ++ b) = stored a ++ stored b := by
  induction a with
  | nil => rfl
  | cons o a ih => cases o <;> simp [stored, ih]

/-- What holds throughout. -/
structure Inv (s : State D) (docs : List D) (asked : Prop) : Prop where
  view : s.view = docs.getLast?
  fresh : asked → s.posting = 0 → s.queue = 0 → s.lagged = false → s.phase = .idle → shown s = s.view
  built : ∀ d, s.phase = .built d → s.interned = some d ∧ (s.posting = 0 → s.queue = 0 → s.lagged = false → s.view = some d) ∧
    ∃ is : List Nat, is.Pairwise (· ≤ ·) ∧ is.map (docs[·]?) = (s.sent ++ [d]).map some
  kept : (∀ d, s.phase ≠ .built d) → s.interned = shown s
  follows : Follows s.sent docs

theorem follows_append {l docs : List D} (d : D) (h : Follows l docs) : Follows l (docs ++ [d]) := by
  obtain ⟨is, h1, h2⟩ := h
  refine ⟨is, h1, ?_⟩
  rw [← h2]
  apply List.map_congr_left
  intro i hi
  have : docs[i]? ∈ is.map (docs[·]?) := List.mem_map.2 ⟨i, hi, rfl⟩
  rw [h2] at this
  obtain ⟨x, -, hx⟩ := List.mem_map.1 this
  have hlt : i < docs.length := by
    rcases Nat.lt_or_ge i docs.length with h | h
    · exact h
    · rw [List.getElem?_eq_none h] at hx; cases hx
  exact List.getElem?_append_left hlt

theorem follows_last {l docs : List D} {d : D} (h : Follows l docs) (hd : docs.getLast? = some d) : Follows (l ++ [d]) docs := by
  obtain ⟨is, h1, h2⟩ := h
  refine ⟨is ++ [docs.length - 1], ?_, ?_⟩
  · rw [List.pairwise_append]
    refine ⟨h1, List.pairwise_singleton .., fun i hi j hj => ?_⟩
    cases List.mem_singleton.1 hj
    have : docs[i]? ∈ is.map (docs[·]?) := List.mem_map.2 ⟨i, hi, rfl⟩
    rw [h2] at this
    obtain ⟨x, -, hx⟩ := List.mem_map.1 this
    rcases Nat.lt_or_ge i docs.length with h | h
    · omega
    · rw [List.getElem?_eq_none h] at hx; cases hx
  · rw [List.map_append, List.map_append, h2]
    rw [List.getLast?_eq_getElem?] at hd
    simp [hd]

theorem post_inv {cap : Nat} {s : State D} {docs : List D} {asked asked' : Prop} (hi : Inv s docs asked) (n : Nat) : Inv { post cap s with posting := n } docs asked' := by
  obtain ⟨h1, h2, h3, h4, h5⟩ := hi
  unfold post
  split
  · exact ⟨h1, fun _ _ h => absurd h (by simp), fun d hd => ⟨(h3 d hd).1, fun _ h => absurd h (by simp), (h3 d hd).2.2⟩, h4, h5⟩
  · exact ⟨h1, fun _ _ _ h => absurd h (by simp), fun d hd => ⟨(h3 d hd).1, fun _ _ h => absurd h (by simp), (h3 d hd).2.2⟩, h4, h5⟩

theorem step_inv (cap : Nat) (s : State D) (docs : List D) (asked : Prop) (op : Op D) (hi : Inv s docs asked) :
    Inv (step cap s op) (docs ++ stored [op]) (asked ∨ Asked [op]) := by
  have hi' := hi
  have hn : ∀ {s' : State D} {docs' : List D}, Inv s' docs' asked → ¬ Asked [op] → Inv s' docs' (asked ∨ Asked [op]) := fun h hna =>
    ⟨h.view, fun ha => h.fresh (ha.elim id fun h => absurd h hna), h.built, h.kept, h.follows⟩
  obtain ⟨h1, h2, h3, h4, h5⟩ := hi
  cases op with
  | store d =>
    refine ⟨by simp [step, stored], fun _ h => absurd h (by simp [step]), fun e he => ?_, h4, follows_append d h5⟩
    obtain ⟨h6, -, h7⟩ := h3 e he
    exact ⟨h6, fun h => absurd h (by simp [step]), follows_append (l := s.sent ++ [e]) d h7⟩
  | announce =>
    simp only [stored, List.append_nil, step]
    split
    · exact hn hi' (by simp [Asked])
    · exact post_inv hi' _
  | request =>
    simp only [stored, List.append_nil, step]
    have e : ({ post cap s with posting := s.posting } : State D) = post cap s := by unfold post; split <;> rfl
    rw [← e]
    exact post_inv hi' s.posting
  | recv =>
    refine hn ?_ (by simp [Asked])
    simp only [stored, List.append_nil, step]
    split
    · rename_i hp
      have h6 := h4 (by simp [hp])
      unfold recv
      split
      · exact ⟨h1, fun _ _ _ _ h => by simp at h, fun d h => by simp at h, fun _ => h6, h5⟩
      · split
        · exact hi'
        · exact ⟨h1, fun _ _ _ _ h => by simp at h, fun d h => by simp at h, fun _ => h6, h5⟩
    · exact hi'
  | tryRecv =>
    refine hn ?_ (by simp [Asked])
    simp only [stored, List.append_nil, step]
    split
    · rename_i hp
      have h6 := h4 (by simp [hp])
      unfold tryRecv
      split
      · exact ⟨h1, fun _ _ _ _ h => by simp at h, fun d h => by simp at h, fun _ => h6, h5⟩
      · split
        · exact ⟨h1, fun _ _ _ _ h => by simp at h, fun d h => by simp at h, fun _ => h6, h5⟩
        · exact ⟨h1, fun _ _ _ _ h => by simp [hp] at h, fun d h => by simp [hp] at h, fun _ => h6, h5⟩
    · exact hi'
  | outline =>
    refine hn ?_ (by simp [Asked])
    simp only [stored, List.append_nil, step]
    split
    · rename_i hp
      have h6 := h4 (by simp [hp])
      unfold outline
      split
      · rename_i hv
        refine ⟨h1, fun _ _ _ _ _ => ?_, fun d h => by simp at h, fun _ => h6, h5⟩
        obtain ⟨is, -, h7⟩ := h5
        have hd : docs = [] := by
          rw [hv] at h1
          exact List.getLast?_eq_none_iff.1 h1.symm
        subst hd
        show s.sent.getLast? = s.view
        rw [hv]
        cases hs : s.sent with
        | nil => rfl
        | cons x xs =>
          rw [hs] at h7
          cases is with
          | nil => cases h7
          | cons i is => simp at h7
      · rename_i d hv
        refine ⟨h1, fun _ _ _ _ h => by simp at h, fun e h => ?_, fun h => absurd rfl (h d), h5⟩
        cases h
        exact ⟨rfl, fun _ _ _ => hv, follows_last h5 (by rw [← h1, hv])⟩
    · exact hi'
  | send =>
    refine hn ?_ (by simp [Asked])
    simp only [stored, List.append_nil, step]
    split
    · rename_i d hp
      obtain ⟨h6, h7, h8⟩ := h3 d hp
      have h9 : (s.sent ++ [d]).getLast? = some d := by simp
      exact ⟨h1, fun _ a b c _ => h9.trans (h7 a b c).symm, fun e h => by simp at h, fun _ => h6.trans h9.symm, h8⟩
    · exact hi'

theorem run_inv (cap : Nat) (v : Option D) (ops : List (Op D)) : Inv (run cap v ops) (v.toList ++ stored ops) (Asked ops) := by
  have key : ∀ (more ops : List (Op D)) (s : State D), Inv s (v.toList ++ stored ops) (Asked ops) →
      Inv (more.foldl (step cap) s) (v.toList ++ stored (ops ++ more)) (Asked (ops ++ more)) := by
    intro more
    induction more with
    | nil => intro ops s h; simpa using h
    | cons o more ih =>
      intro ops s h
      have h1 := step_inv cap s _ _ o h
      have h2 : Inv (step cap s o) (v.toList ++ stored (ops ++ [o])) (Asked (ops ++ [o])) := by
        rw [stored_append, ← List.append_assoc]
        refine ⟨h1.view, fun ha => h1.fresh ?_, h1.built, h1.kept, h1.follows⟩
        rcases ha with ⟨d, hd⟩ | hd
        · rcases List.mem_append.1 hd with hd | hd
          · exact .inl (.inl ⟨d, hd⟩)
          · exact .inr (.inl ⟨d, hd⟩)
        · rcases List.mem_append.1 hd with hd | hd
          · exact .inl (.inr hd)
          · exact .inr (.inr hd)
      have := ih (ops ++ [o]) (step cap s o) h2
      simpa using this
  refine key ops [] (start v) ⟨by cases v <;> rfl, fun h => ?_, fun d h => (nomatch h), fun _ => rfl, ⟨[], List.Pairwise.nil, rfl⟩⟩
  rcases h with ⟨d, h⟩ | h <;> cases h

/-- **C189.** Whenever a document came or something was asked for, and nothing is left to do, the editor shows the outline of the latest document. -/
theorem latest_shown (cap : Nat) (v : Option D) (ops : List (Op D)) (ha : Asked ops) (h : Quiet (run cap v ops)) :
    shown (run cap v ops) = (v.toList ++ stored ops).getLast? :=
  ((run_inv cap v ops).fresh ha h.1 h.2.1 h.2.2.1 h.2.2.2).trans (run_inv cap v ops).view

/-- **C189.** The outlines that are sent are of documents that were stored, and never of one from before what was sent already. -/
theorem never_back (cap : Nat) (v : Option D) (ops : List (Op D)) : Follows (run cap v ops).sent (v.toList ++ stored ops) := (run_inv cap v ops).follows

/-- **C189.** Unless the next outline is about to be sent, the places kept are those of the outline that is shown. -/
theorem places_kept (cap : Nat) (v : Option D) (ops : List (Op D)) (h : ∀ d, (run cap v ops).phase ≠ .built d) :
    (run cap v ops).interned = shown (run cap v ops) :=
  (run_inv cap v ops).kept h

/-- What may still become an outline. -/
def load (s : State D) : Nat :=
  s.posting + s.queue + (if s.lagged then 1 else 0) +
    match s.phase with
    | .idle => 0
    | _ => 1

theorem post_load (cap : Nat) (s : State D) (hc : s.queue ≤ cap) :
    load (post cap s) ≤ load s + 1 ∧ (post cap s).sent = s.sent ∧ (post cap s).queue ≤ cap ∧ (post cap s).posting = s.posting := by
  unfold post load
  split
  · refine ⟨?_, rfl, ?_, rfl⟩ <;> dsimp only <;> omega
  · refine ⟨?_, rfl, hc, rfl⟩
    dsimp only
    cases s.lagged <;> simp <;> omega

theorem step_load (cap : Nat) (s : State D) (op : Op D) (hc : s.queue ≤ cap) :
    (step cap s op).sent.length + load (step cap s op) ≤ s.sent.length + load s + asks [op] ∧ (step cap s op).queue ≤ cap := by
  cases op with
  | store d =>
    refine ⟨?_, hc⟩
    have : load (step cap s (.store d)) = load s + 1 := by
      have e : step cap s (.store d) = { s with view := some d, posting := s.posting + 1 } := rfl
      rw [e]
      unfold load
      dsimp only
      omega
    rw [this]
    simp only [step, asks]
    omega
  | announce =>
    obtain ⟨h1, h2, h3, h4⟩ := post_load cap s hc
    by_cases h0 : s.posting = 0
    · have e : step cap s (.announce : Op D) = s := if_pos h0
      rw [e]
      exact ⟨Nat.le_add_right _ _, hc⟩
    · have e : step cap s (.announce : Op D) = { post cap s with posting := s.posting - 1 } := if_neg h0
      rw [e]
      refine ⟨?_, h3⟩
      unfold load at h1 ⊢
      rw [h4] at h1
      dsimp only
      rw [h2]
      simp only [asks]
      omega
  | request =>
    obtain ⟨h1, h2, h3, -⟩ := post_load cap s hc
    simp only [step, asks]
    rw [h2]
    exact ⟨by omega, h3⟩
  | recv =>
    simp only [step, asks]
    split
    · rename_i hp
      unfold recv
      split
      · rename_i hl
        refine ⟨?_, hc⟩
        simp [load, hp, hl]
      · split
        · exact ⟨Nat.le_refl _, hc⟩
        · rename_i hl hq
          refine ⟨?_, by dsimp only; omega⟩
          simp only [load, hp]
          omega
    · exact ⟨Nat.le_refl _, hc⟩
  | tryRecv =>
    simp only [step, asks]
    split
    · rename_i hp
      unfold tryRecv
      split
      · rename_i hl
        refine ⟨?_, hc⟩
        simp [load, hp, hl]
      · split
        · refine ⟨?_, hc⟩
          simp [load, hp]
        · rename_i hl hq
          refine ⟨?_, by dsimp only; omega⟩
          simp only [load, hp]
          omega
    · exact ⟨Nat.le_refl _, hc⟩
  | outline =>
    simp only [step, asks]
    split
    · rename_i hp
      unfold outline
      split <;> (refine ⟨?_, hc⟩; simp [load, hp])
    · exact ⟨Nat.le_refl _, hc⟩
  | send =>
    simp only [step, asks]
    split
    · rename_i d hp
      refine ⟨?_, hc⟩
      simp only [load, hp, List.length_append, List.length_cons, List.length_nil]
      omega
    · exact ⟨Nat.le_refl _, hc⟩

/-- **C189.** No more outlines are sent than documents came and things were asked for, and no more messages wait than the channel keeps. -/
theorem no_more_than_asked (cap : Nat) (v : Option D) (ops : List (Op D)) :
    (run cap v ops).sent.length ≤ asks ops ∧ (run cap v ops).queue ≤ cap := by
  have key : ∀ (ops : List (Op D)) (s : State D), s.queue ≤ cap →
      (ops.foldl (step cap) s).sent.length + load (ops.foldl (step cap) s) ≤ s.sent.length + load s + asks ops ∧ (ops.foldl (step cap) s).queue ≤ cap := by
    intro ops
    induction ops with
    | nil => intro s hs; exact ⟨Nat.le_refl _, hs⟩
    | cons o ops ih =>
      intro s hs
      obtain ⟨h1, h2⟩ := step_load cap s o hs
      obtain ⟨h3, h4⟩ := ih (step cap s o) h2
      refine ⟨?_, h4⟩
      have h5 : asks (o :: ops) = asks [o] + asks ops := by cases o <;> simp [asks] <;> omega
      rw [h5, List.foldl_cons]
      omega
  obtain ⟨h1, h2⟩ := key ops (start v) (Nat.zero_le _)
  refine ⟨?_, h2⟩
  have : (start v).sent.length + load (start v) = 0 := rfl
  unfold run
  omega

/-- How much is left to do. -/
def left (s : State D) : Nat :=
  5 * s.posting + 4 * s.queue + (if s.lagged then 4 else 0) +
    match s.phase with
    | .idle => 0
    | .drain => 3
    | .ready => 2
    | .built _ => 1

theorem post_left (cap : Nat) (s : State D) : left (post cap s) ≤ left s + 4 := by
  unfold post left
  split
  · dsimp only; omega
  · dsimp only
    cases s.lagged <;> simp <;> omega

theorem own_step (cap : Nat) (s : State D) (h : ¬ Quiet s) : ∃ o : Op D, Own o ∧ left (step cap s o) < left s := by
  cases hp : s.phase with
  | idle =>
    by_cases h0 : s.posting = 0
    · refine ⟨.recv, trivial, ?_⟩
      simp only [step, hp, recv]
      cases hl : s.lagged with
      | true => simp [left, hp, hl]
      | false =>
        by_cases hq : s.queue = 0
        · exact absurd ⟨h0, hq, hl, hp⟩ h
        · simp only [Bool.false_eq_true, if_false, if_neg hq, left, hp, hl]
          omega
    · refine ⟨.announce, trivial, ?_⟩
      have h3 : step cap s (.announce : Op D) = { post cap s with posting := s.posting - 1 } := if_neg h0
      rw [h3]
      have h1 := post_left cap s
      have h2 : left { post cap s with posting := s.posting - 1 } + 5 = left (post cap s) := by
        have : (post cap s).posting = s.posting := by unfold post; split <;> rfl
        unfold left
        rw [this]
        dsimp only
        omega
      omega
  | drain =>
    refine ⟨.tryRecv, trivial, ?_⟩
    simp only [step, hp, tryRecv]
    cases hl : s.lagged with
    | true => simp [left, hp, hl]
    | false =>
      by_cases hq : s.queue = 0
      · simp [left, hp, hl, hq]
      · simp only [Bool.false_eq_true, if_false, if_neg hq, left, hp, hl]
        omega
  | ready =>
    refine ⟨.outline, trivial, ?_⟩
    simp only [step, hp, outline]
    cases hv : s.view <;> simp [left, hp]
  | built d =>
    refine ⟨.send, trivial, ?_⟩
    simp only [step, hp]
    simp [left, hp]

/-- **C189.** From wherever things stand, the loop and the announcing can by themselves go on until nothing is left to do. -/
theorem settles (cap : Nat) (v : Option D) (ops : List (Op D)) : ∃ more : List (Op D), (∀ o ∈ more, Own o) ∧ Quiet (run cap v (ops ++ more)) := by
  have key : ∀ (n : Nat) (s : State D), left s ≤ n → ∃ more : List (Op D), (∀ o ∈ more, Own o) ∧ Quiet (more.foldl (step cap) s) := by
    intro n
    induction n with
    | zero =>
      intro s hs
      by_cases h : Quiet s
      · exact ⟨[], fun _ h => (nomatch h), h⟩
      · obtain ⟨o, -, h2⟩ := own_step cap s h
        omega
    | succ n ih =>
      intro s hs
      by_cases h : Quiet s
      · exact ⟨[], fun _ h => (nomatch h), h⟩
      · obtain ⟨o, h1, h2⟩ := own_step cap s h
        obtain ⟨more, h3, h4⟩ := ih (step cap s o) (by omega)
        refine ⟨o :: more, fun x hx => ?_, h4⟩
        rcases List.mem_cons.1 hx with rfl | hx
        · exact h1
        · exact h3 x hx
  obtain ⟨more, h1, h2⟩ := key _ (run cap v ops) (Nat.le_refl _)
  exact ⟨more, h1, by unfold run; rw [List.foldl_append]; exact h2⟩

/-! ## Examples -/

/-- Two documents, the second of which is stored while the outline of the first is made, and a channel that keeps one message. -/
def example1 : List (Op Nat) :=
  [.store 1, .announce, .request, .recv, .tryRecv, .tryRecv, .outline, .store 2, .send, .announce, .recv, .tryRecv, .outline, .send]

example : Asked example1 ∧ Quiet (run 1 none example1) ∧ shown (run 1 none example1) = some 2 ∧ (run 1 none example1).sent = [1, 2] := by
  refine ⟨.inl ⟨1, by decide⟩, ?_⟩
  unfold Quiet
  decide

example : stored example1 = [1, 2] ∧ asks example1 = 3 := ⟨rfl, rfl⟩

/-- While the next outline is about to be sent, the places of the one that is shown are gone. -/
theorem places_lost : ∃ ops : List (Op Nat), (run 8 none ops).interned ≠ shown (run 8 none ops) ∧ shown (run 8 none ops) = some 1 :=
  ⟨[.store 1, .announce, .recv, .tryRecv, .outline, .send, .store 2, .announce, .recv, .tryRecv, .outline], by decide⟩

/-- A page that connects to a document and asks for nothing leaves the editor without an outline. -/
theorem nothing_by_itself (cap : Nat) (d : D) : Quiet (run cap (some d) []) ∧ shown (run cap (some d) []) = none := ⟨⟨rfl, rfl, rfl, rfl⟩, rfl⟩

end Tinymist.OutlineFlow
