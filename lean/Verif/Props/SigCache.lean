import Verif.Spec.SigCache

/-!
# Signatures kept across questions (C179)
-/

namespace Tinymist.SigCache

variable {W K V : Type} [DecidableEq K] {F : W → K → V}

theorem run_append (st : St W K V) (a b : List (Op W K)) : run F st (a ++ b) = run F (run F st a) b := List.foldl_append

theorem worlds_append (a b : List (Op W K)) : worlds (a ++ b) = worlds a ++ worlds b := List.filterMap_append

/-! ## Every history -/

/-- What holds of the caches after a history of questions about these worlds, where `key` has the keys of the cells. -/
structure Inv (F : W → K → V) (ws : List W) (key : Nat → Option K) (st : St W K V) : Prop where
  count : st.lifetime = ws.length
  asker : ∀ a ∈ st.askers, ws[a.life]? = some a.world
  entry : ∀ e ∈ st.map, key e.cell = some e.key ∧ e.cell < st.cells.length
  wait : ∀ a ∈ st.askers, ∀ k c, a.wait = some (k, c) → key c = some k ∧ c < st.cells.length
  cell : ∀ (c : Nat) (v : V), st.cells[c]? = some (some v) → ∃ (n : Nat) (w : W) (k : K), ws[n]? = some w ∧ key c = some k ∧ v = F w k

theorem mem_setWait {life : Nat} {x : Option (K × Nat)} {as : List (Asker W K)} {a : Asker W K} (h : a ∈ setWait life x as) :
    ∃ b ∈ as, a.life = b.life ∧ a.world = b.world ∧ (a.wait = b.wait ∨ a.wait = x) := by
  obtain ⟨b, hb, he⟩ := List.mem_map.mp h
  refine ⟨b, hb, ?_⟩
  split at he <;> subst he
  · exact ⟨rfl, rfl, .inr rfl⟩
  · exact ⟨rfl, rfl, .inl rfl⟩

theorem find_mem {life : Nat} {as : List (Asker W K)} {a : Asker W K} (h : find life as = some a) : a ∈ as ∧ a.life = life :=
  ⟨List.mem_of_find?_eq_some h, by simpa using List.find?_some h⟩

theorem inv_step {ws : List W} {key : Nat → Option K} {st : St W K V} (h : Inv F ws key st) (o : Op W K) :
    ∃ key', Inv F (ws ++ worlds [o]) key' (step F st o).1 := by
  cases o with
  | enter w =>
    refine ⟨key, ⟨?_, ?_, h.entry, ?_, ?_⟩⟩
    · simp [step, worlds, h.count]
    · intro a ha
      simp only [step, List.mem_append, List.mem_singleton] at ha
      rcases ha with ha | ha
      · rw [List.getElem?_append_left]
        · exact h.asker a ha
        · have := h.asker a ha
          exact (List.getElem?_eq_some_iff.mp this).1
      · subst ha
        simp [worlds, h.count]
    · intro a ha k c hk
      simp only [step, List.mem_append, List.mem_singleton] at ha
      rcases ha with ha | ha
      · exact h.wait a ha k c hk
      · subst ha
        cases hk
    · intro c v hv
      obtain ⟨n, w', k, h1, h2, h3⟩ := h.cell c v hv
      exact ⟨n, w', k, by rw [List.getElem?_append_left (List.getElem?_eq_some_iff.mp h1).1]; exact h1, h2, h3⟩
  | take life k =>
    have hw : ws ++ worlds [Op.take (W := W) life k] = ws := by simp [worlds]
    rw [hw]
    simp only [step]
    cases hf : find life st.askers with
    | none => exact ⟨key, h⟩
    | some a =>
      simp only
      unfold SigCache.entry
      cases hm : st.map.find? (·.key = k) with
      | some e =>
        have he := List.mem_of_find?_eq_some hm
        have hk : e.key = k := by simpa using List.find?_some hm
        refine ⟨key, ⟨h.count, ?_, h.entry, ?_, h.cell⟩⟩
        · intro b hb
          obtain ⟨x, hx, h1, h2, -⟩ := mem_setWait hb
          rw [h1, h2]
          exact h.asker x hx
        · intro b hb k' c hk'
          obtain ⟨x, hx, -, -, h3⟩ := mem_setWait hb
          rcases h3 with h3 | h3
          · exact h.wait x hx k' c (h3 ▸ hk')
          · rw [h3] at hk'
            cases hk'
            rw [← hk]
            exact h.entry e he
      | none =>
        refine ⟨fun c => if c = st.cells.length then some k else key c, ⟨h.count, ?_, ?_, ?_, ?_⟩⟩
        · intro b hb
          obtain ⟨x, hx, h1, h2, -⟩ := mem_setWait hb
          rw [h1, h2]
          exact h.asker x hx
        · intro e he
          simp only [List.mem_cons] at he
          simp only [List.length_append, List.length_singleton]
          rcases he with he | he
          · subst he
            exact ⟨if_pos rfl, Nat.lt_succ_self _⟩
          · have := h.entry e he
            rw [if_neg (by omega)]
            exact ⟨this.1, by omega⟩
        · intro b hb k' c hk'
          simp only [List.length_append, List.length_singleton]
          obtain ⟨x, hx, -, -, h3⟩ := mem_setWait hb
          rcases h3 with h3 | h3
          · have := h.wait x hx k' c (h3 ▸ hk')
            rw [if_neg (by omega)]
            exact ⟨this.1, by omega⟩
          · rw [h3] at hk'
            cases hk'
            exact ⟨if_pos rfl, Nat.lt_succ_self _⟩
        · intro c v hv
          simp only at hv
          have hlt : c < st.cells.length := by
            rcases Nat.lt_or_ge c st.cells.length with hc | hc
            · exact hc
            · rw [List.getElem?_append_right hc] at hv
              cases hd : c - st.cells.length with
              | zero => rw [hd] at hv; cases hv
              | succ d => rw [hd] at hv; cases hv
          rw [List.getElem?_append_left hlt] at hv
          rw [if_neg (by omega)]
          exact h.cell c v hv
  | read life =>
    have hw : ws ++ worlds [Op.read (W := W) (K := K) life] = ws := by simp [worlds]
    rw [hw]
    have asker' : ∀ x, ∀ b ∈ setWait life x st.askers, ws[b.life]? = some b.world := by
      intro x b hb
      obtain ⟨y, hy, h1, h2, -⟩ := mem_setWait hb
      rw [h1, h2]
      exact h.asker y hy
    simp only [step]
    cases hf : find life st.askers with
    | none => exact ⟨key, h⟩
    | some a =>
      obtain ⟨l, w, wt⟩ := a
      obtain ⟨ha, hl⟩ := find_mem hf
      cases wt with
      | none => exact ⟨key, h⟩
      | some p =>
        obtain ⟨k, c⟩ := p
        obtain ⟨hk, hc⟩ := h.wait _ ha k c rfl
        have wait' : ∀ b ∈ setWait life none st.askers, ∀ k c, b.wait = some (k, c) → key c = some k ∧ c < st.cells.length := by
          intro b hb k' c' hk'
          obtain ⟨y, hy, -, -, h3⟩ := mem_setWait hb
          rcases h3 with h3 | h3
          · exact h.wait y hy k' c' (h3 ▸ hk')
          · rw [h3] at hk'
            cases hk'
        simp only
        cases hv : st.cells[c]? with
        | none => exact ⟨key, h⟩
        | some o =>
          cases o with
          | some v => exact ⟨key, ⟨h.count, asker' _, h.entry, wait', h.cell⟩⟩
          | none =>
            refine ⟨key, ⟨h.count, asker' _, fun e he => ?_, fun b hb k' c' hk' => ?_, fun c' v hv' => ?_⟩⟩
            · simpa using h.entry e he
            · simpa using wait' b hb k' c' hk'
            · simp only at hv'
              by_cases hcc : c = c'
              · subst hcc
                rw [List.getElem?_set_self hc] at hv'
                cases hv'
                exact ⟨l, w, k, h.asker _ ha, hk, rfl⟩
              · rw [List.getElem?_set_ne hcc] at hv'
                exact h.cell c' v hv'
  | drop life =>
    have hw : ws ++ worlds [Op.drop (W := W) (K := K) life] = ws := by simp [worlds]
    rw [hw]
    simp only [step]
    cases hf : find life st.askers with
    | none => exact ⟨key, h⟩
    | some a =>
      have hin : ∀ b ∈ st.askers.filter (·.life ≠ life), b ∈ st.askers := fun b hb => (List.mem_filter.mp hb).1
      simp only
      unfold gc
      split
      · exact ⟨key, ⟨h.count, fun b hb => h.asker b (hin b hb), h.entry, fun b hb => h.wait b (hin b hb), h.cell⟩⟩
      · exact ⟨key, ⟨h.count, fun b hb => h.asker b (hin b hb), fun e he => h.entry e (List.mem_filter.mp he).1,
          fun b hb => h.wait b (hin b hb), h.cell⟩⟩
  | clear =>
    have hw : ws ++ worlds [Op.clear (W := W) (K := K)] = ws := by simp [worlds]
    rw [hw]
    exact ⟨key, ⟨h.count, h.asker, fun e he => (nomatch he), h.wait, h.cell⟩⟩

theorem inv_run (ops : List (Op W K)) : ∃ key, Inv F (worlds ops) key (run F init ops) := by
  have : ∀ (ops : List (Op W K)) (ws : List W) (st : St W K V) (key : Nat → Option K), Inv F ws key st →
      ∃ key', Inv F (ws ++ worlds ops) key' (run F st ops) := by
    intro ops
    induction ops with
    | nil =>
      intro ws st key h
      exact ⟨key, by simpa [worlds, run] using h⟩
    | cons o ops ih =>
      intro ws st key h
      obtain ⟨key1, h1⟩ := inv_step h o
      obtain ⟨key2, h2⟩ := ih _ _ key1 h1
      refine ⟨key2, ?_⟩
      have e : worlds (o :: ops) = worlds [o] ++ worlds ops := worlds_append [o] ops
      rw [e, ← List.append_assoc]
      exact h2
  exact this ops [] init (fun _ => none) ⟨rfl, fun _ h => (nomatch h), fun _ h => (nomatch h), fun _ h => (nomatch h), fun _ _ h => by cases h⟩

/-- **C179.** Whatever was asked before, at the same time, ended or cleared: the signature that a question gets for a key is that of this key in the
world of one of the questions. -/
theorem answer_from {ops : List (Op W K)} {life : Nat} {k : K} {v : V} (h : (step F (run F init ops) (.read life)).2 = some (k, v)) :
    ∃ w ∈ worlds ops, v = F w k := by
  obtain ⟨key, inv⟩ := inv_run (F := F) ops
  generalize run F init ops = st at h inv
  simp only [step] at h
  cases hf : find life st.askers with
  | none => simp only [hf] at h; cases h
  | some a =>
    obtain ⟨l, w, wt⟩ := a
    obtain ⟨ha, hl⟩ := find_mem hf
    cases wt with
    | none => simp only [hf] at h; cases h
    | some p =>
      obtain ⟨k', c⟩ := p
      obtain ⟨hk, hc⟩ := inv.wait _ ha k' c rfl
      simp only [hf] at h
      cases hv : st.cells[c]? with
      | none => simp only [hv] at h; cases h
      | some o =>
        cases o with
        | some v' =>
          simp only [hv] at h
          cases h
          obtain ⟨n, w', k2, h1, h2, h3⟩ := inv.cell c v hv
          rw [hk] at h2
          cases h2
          exact ⟨w', List.mem_of_getElem? h1, h3⟩
        | none =>
          simp only [hv] at h
          cases h
          exact ⟨w, List.mem_of_getElem? (inv.asker _ ha), rfl⟩

/-- **C179.** So signatures that only depend on the key, and types of values, are right.
Missing: signatures that depend on other files, which may be old. -/
theorem right_alone_partial {ops : List (Op W K)} {life : Nat} {k : K} {v : V} (h : (step F (run F init ops) (.read life)).2 = some (k, v)) (w : W)
    (hf : ∀ w' ∈ worlds ops, F w' k = F w k) : v = F w k := by
  obtain ⟨w', h1, h2⟩ := answer_from h
  rw [h2, hf w' h1]

/-! ## One question after the other -/

/-- Between two questions. -/
structure Quiet (F : W → K → V) (ws : List W) (st : St W K V) : Prop where
  count : st.lifetime = ws.length
  none : st.askers = []
  clear : st.clear = ws.length - 1
  entry : ∀ e ∈ st.map, ws.length ≤ e.life + 60 ∧ ∃ w, ws[e.life]? = some w ∧ st.cells[e.cell]? = some (some (F w e.key))

/-- While the last question is answered. -/
structure Busy (F : W → K → V) (ws : List W) (w : W) (st : St W K V) : Prop where
  count : st.lifetime = ws.length + 1
  one : st.askers = [⟨ws.length, w, none⟩]
  clear : st.clear = ws.length - 1
  entry : ∀ e ∈ st.map, ws.length ≤ e.life + 60 ∧ ∃ w', (ws ++ [w])[e.life]? = some w' ∧ st.cells[e.cell]? = some (some (F w' e.key))

theorem busy_enter {ws : List W} {st : St W K V} (h : Quiet F ws st) (w : W) : Busy F ws w (run F st [.enter w]) := by
  refine ⟨by simp [run, step, h.count], by simp [run, step, h.none, h.count], h.clear, fun e he => ?_⟩
  obtain ⟨h1, w', h2, h3⟩ := h.entry e he
  exact ⟨h1, w', by rw [List.getElem?_append_left (List.getElem?_eq_some_iff.mp h2).1]; exact h2, h3⟩

/-- A question gets a signature, which is that of one of the last sixty questions before it or its own. -/
theorem busy_ask {ws : List W} {w : W} {st : St W K V} (h : Busy F ws w st) (k : K) :
    Busy F ws w (run F st [.take ws.length k, .read ws.length]) ∧
      ∃ (n : Nat) (w' : W), (ws ++ [w])[n]? = some w' ∧ ws.length ≤ n + 60 ∧
        (step F (run F st [.take ws.length k]) (.read ws.length)).2 = some (k, F w' k) := by
  have hf : find ws.length st.askers = some ⟨ws.length, w, none⟩ := by simp [find, h.one]
  have hset : ∀ x y, setWait (K := K) ws.length x [⟨ws.length, w, y⟩] = [⟨ws.length, w, x⟩] := by simp [setWait]
  have hf2 : ∀ x, find ws.length [(⟨ws.length, w, x⟩ : Asker W K)] = some ⟨ws.length, w, x⟩ := by simp [find]
  cases hm : st.map.find? (·.key = k) with
  | some e =>
    have he := List.mem_of_find?_eq_some hm
    have hk : e.key = k := by simpa using List.find?_some hm
    obtain ⟨h1, w', h2, h3⟩ := h.entry e he
    have e1 : run F st [.take ws.length k] = { st with askers := [⟨ws.length, w, some (k, e.cell)⟩] } := by
      simp only [run, List.foldl_cons, List.foldl_nil, step, hf, SigCache.entry, hm]
      rw [h.one, hset]
    have e2 : step F { st with askers := [⟨ws.length, w, some (k, e.cell)⟩] } (.read ws.length) =
        ({ st with askers := [⟨ws.length, w, none⟩] }, some (k, F w' k)) := by
      simp only [step, hf2, h3, hset, hk]
    refine ⟨?_, e.life, w', h2, h1, by rw [e1, e2]⟩
    have e3 : run F st [.take ws.length k, .read ws.length] = { st with askers := [⟨ws.length, w, none⟩] } := by
      rw [show [Op.take ws.length k, Op.read ws.length] = [Op.take (W := W) ws.length k] ++ [.read ws.length] from rfl, run_append, e1]
      simp only [run, List.foldl_cons, List.foldl_nil, e2]
    rw [e3]
    exact ⟨h.count, rfl, h.clear, h.entry⟩
  | none =>
    have e1 : run F st [.take ws.length k] = { st with
        map := ⟨k, ws.length, st.cells.length⟩ :: st.map, cells := st.cells ++ [none], askers := [⟨ws.length, w, some (k, st.cells.length)⟩] } := by
      simp only [run, List.foldl_cons, List.foldl_nil, step, hf, SigCache.entry, hm]
      rw [h.one, hset]
    have hc : (st.cells ++ [none])[st.cells.length]? = some none := by simp
    have hs : (st.cells ++ [(none : Option V)]).set st.cells.length (some (F w k)) = st.cells ++ [some (F w k)] := by simp
    have e2 : step F { st with
        map := ⟨k, ws.length, st.cells.length⟩ :: st.map, cells := st.cells ++ [none], askers := [⟨ws.length, w, some (k, st.cells.length)⟩] }
          (.read ws.length) = ({ st with
        map := ⟨k, ws.length, st.cells.length⟩ :: st.map, cells := st.cells ++ [some (F w k)], askers := [⟨ws.length, w, none⟩] }, some (k, F w k)) := by
      simp only [step, hf2, hc, hset, hs]
    refine ⟨?_, ws.length, w, by simp, by omega, by rw [e1, e2]⟩
    have e3 : run F st [.take ws.length k, .read ws.length] = { st with
        map := ⟨k, ws.length, st.cells.length⟩ :: st.map, cells := st.cells ++ [some (F w k)], askers := [⟨ws.length, w, none⟩] } := by
      rw [show [Op.take ws.length k, Op.read ws.length] = [Op.take (W := W) ws.length k] ++ [.read ws.length] from rfl, run_append, e1]
      simp only [run, List.foldl_cons, List.foldl_nil, e2]
    rw [e3]
    refine ⟨h.count, rfl, h.clear, fun e he => ?_⟩
    simp only [List.mem_cons] at he
    rcases he with he | he
    · subst he
      exact ⟨by simp, w, by simp, by simp⟩
    · obtain ⟨h1, w', h2, h3⟩ := h.entry e he
      exact ⟨h1, w', h2, by rw [List.getElem?_append_left (List.getElem?_eq_some_iff.mp h3).1]; exact h3⟩

theorem busy_asks {ws : List W} {w : W} (ks : List K) : ∀ {st : St W K V}, Busy F ws w st →
    Busy F ws w (run F st (ks.flatMap fun k => [.take ws.length k, .read ws.length])) := by
  induction ks with
  | nil => exact fun h => h
  | cons k ks ih =>
    intro st h
    rw [List.flatMap_cons, run_append]
    exact ih (busy_ask h k).1

theorem quiet_drop {ws : List W} {w : W} {st : St W K V} (h : Busy F ws w st) : Quiet F (ws ++ [w]) (run F st [.drop ws.length]) := by
  have hf : find ws.length st.askers = some ⟨ws.length, w, none⟩ := by simp [find, h.one]
  have ha : st.askers.filter (·.life ≠ ws.length) = [] := by simp [h.one]
  simp only [run, List.foldl_cons, List.foldl_nil, step, hf, gc]
  rw [ha]
  have hc := h.clear
  split
  · rename_i hge
    have h0 : ws.length = 0 := by omega
    refine ⟨by simp [h.count], rfl, by simp [h0, hc], fun e he => ?_⟩
    obtain ⟨h1, w', h2, h3⟩ := h.entry e he
    exact ⟨by simp [h0], w', h2, h3⟩
  · refine ⟨by simp [h.count], rfl, by simp, fun e he => ?_⟩
    obtain ⟨he, hr⟩ := List.mem_filter.mp he
    obtain ⟨h1, w', h2, h3⟩ := h.entry e he
    have hlt := (List.getElem?_eq_some_iff.mp h2).1
    unfold retained at hr
    rw [decide_eq_true_eq] at hr
    rw [List.length_append, List.length_singleton] at hlt ⊢
    exact ⟨by omega, w', h2, h3⟩

theorem quiet_run {n : Nat} {ops : List (Op W K)} (h : OneByOne n ops) : (worlds ops).length = n ∧ Quiet F (worlds ops) (run F init ops) := by
  induction h with
  | nil => exact ⟨rfl, ⟨rfl, rfl, rfl, fun _ h => (nomatch h)⟩⟩
  | @next n ops w ks _ ih =>
    obtain ⟨hn, hq⟩ := ih
    have hno : worlds (ks.flatMap fun k => [Op.take n k, Op.read (W := W) n]) = [] := by
      induction ks with
      | nil => rfl
      | cons k ks ihk => rw [List.flatMap_cons, worlds_append, ihk]; rfl
    have hw : worlds (ops ++ .enter w :: (ks.flatMap fun k => [Op.take n k, Op.read n]) ++ [.drop n]) = worlds ops ++ [w] := by
      rw [worlds_append, worlds_append, show (Op.enter w :: (ks.flatMap fun k => [Op.take n k, Op.read n])) =
        [Op.enter w] ++ (ks.flatMap fun k => [Op.take n k, Op.read n]) from rfl, worlds_append, hno]
      simp [worlds]
    rw [hw]
    refine ⟨by simp [hn], ?_⟩
    rw [run_append, run_append, show (Op.enter w :: (ks.flatMap fun k => [Op.take n k, Op.read n])) =
        [Op.enter w] ++ (ks.flatMap fun k => [Op.take n k, Op.read n]) from rfl, run_append]
    subst hn
    exact quiet_drop (busy_asks ks (busy_enter hq w))

/-- **C179.** When one question comes after the other, every signature asked for is got, and it is that of the question's own world or of the
world of one of the sixty questions before it. -/
theorem age {n : Nat} {ops : List (Op W K)} (h : OneByOne n ops) (w : W) (ks : List K) (k : K) :
    ∃ (m : Nat) (w' : W), (worlds ops ++ [w])[m]? = some w' ∧ n ≤ m + 60 ∧
      (step F (run F init (ops ++ .enter w :: (ks.flatMap fun k => [.take n k, .read n]) ++ [.take n k])) (.read n)).2 = some (k, F w' k) := by
  obtain ⟨hn, hq⟩ := quiet_run (F := F) h
  subst hn
  rw [run_append, run_append, show (Op.enter w :: (ks.flatMap fun k => [Op.take (worlds ops).length k, Op.read (worlds ops).length])) =
        [Op.enter w] ++ (ks.flatMap fun k => [Op.take (worlds ops).length k, Op.read (worlds ops).length]) from rfl, run_append]
  exact (busy_ask (busy_asks ks (busy_enter hq w)) k).2

/-- **C179.** So a change of another file has an effect after sixty questions at the latest. -/
theorem fresh {n : Nat} {ops : List (Op W K)} (h : OneByOne n ops) (w : W) (ks : List K) (k : K)
    (hw : ∀ m w', n ≤ m + 60 → (worlds ops)[m]? = some w' → F w' k = F w k) :
    (step F (run F init (ops ++ .enter w :: (ks.flatMap fun k => [.take n k, .read n]) ++ [.take n k])) (.read n)).2 = some (k, F w k) := by
  obtain ⟨m, w', h1, h2, h3⟩ := age (F := F) h w ks k
  rw [h3]
  rcases Nat.lt_or_ge m (worlds ops).length with hm | hm
  · rw [List.getElem?_append_left hm] at h1
    rw [hw m w' h2 h1]
  · rw [List.getElem?_append_right hm] at h1
    cases hd : m - (worlds ops).length with
    | zero =>
      rw [hd] at h1
      cases h1
      rfl
    | succ d => rw [hd] at h1; cases h1

/-! ## Stale signatures -/

/-- A question about a signature in one world, and others in another world that do not ask for it. -/
def after (w1 w2 : W) (k : K) : Nat → List (Op W K)
  | 0 => [.enter w1, .take 0 k, .read 0, .drop 0]
  | n + 1 => after w1 w2 k n ++ [.enter w2, .drop (n + 1)]

theorem after_one (w1 w2 : W) (k : K) : ∀ n, OneByOne (n + 1) (after w1 w2 k n)
  | 0 => .next (ops := []) [k] .nil
  | n + 1 => by
    have := OneByOne.next (w := w2) [] (after_one w1 w2 k n)
    rw [List.append_assoc] at this
    exact this

theorem after_state (w1 w2 : W) (k : K) : ∀ n, n < 60 →
    run F init (after w1 w2 k n) = ⟨n + 1, n, [⟨k, 0, 0⟩], [some (F w1 k)], []⟩
  | 0, _ => by simp [after, run, step, find, setWait, SigCache.entry, init, gc]
  | n + 1, h => by
    rw [after, run_append, after_state w1 w2 k n (by omega)]
    have hn : ¬ n + 1 ≤ n := by omega
    simp [run, step, find, gc, retained, h, hn]

/-- **C179, violated.** A signature that depends on other files is that of an earlier world, for sixty questions, although the question is about a
world in which it is different. -/
theorem stale (w1 w2 : W) (k : K) (n : Nat) (h : n < 60) (hne : F w1 k ≠ F w2 k) :
    ∃ v, (step F (run F init (after w1 w2 k n ++ .enter w2 :: [.take (n + 1) k])) (.read (n + 1))).2 = some (k, v) ∧ v ≠ F w2 k := by
  refine ⟨F w1 k, ?_, hne⟩
  rw [run_append, after_state w1 w2 k n h]
  simp [run, step, find, setWait, SigCache.entry]

/-! ## The loop -/

/-- **C179.** However other questions end at the same time, the end of a question comes to the point where its lifetime, or a later one, is that of the
last collection; it collects just if it put its own there, and else the value was there or another put it there. -/
theorem settles (life : Nat) (other : Nat → Nat → Nat) (hm : ∀ n v, v ≤ other n v) : ∀ (fuel n v : Nat), 0 < fuel → life < v + fuel →
    ∃ r, settle life other fuel n v = some r ∧ life ≤ r.1 ∧ (r.2 = true → r.1 = life ∧ v < life) ∧
      (r.2 = false → r.1 = v ∨ ∃ m u, other m u = r.1 ∧ r.1 ≠ u)
  | 0, _, _, h, _ => absurd h (Nat.lt_irrefl _)
  | fuel + 1, n, v, _, h => by
    unfold settle
    split
    · rename_i hge
      exact ⟨_, rfl, hge, fun h => (nomatch h), fun _ => .inl rfl⟩
    · simp only
      split
      · exact ⟨_, rfl, Nat.le_refl _, fun _ => ⟨rfl, by omega⟩, fun h => (nomatch h)⟩
      · rename_i hne
        have := hm n v
        obtain ⟨r, h1, h2, h3, h4⟩ := settles life other hm fuel (n + 1) (other n v) (by omega) (by omega)
        refine ⟨r, h1, h2, fun hr => ⟨(h3 hr).1, by omega⟩, fun hr => .inr ?_⟩
        rcases h4 hr with h5 | h5
        · exact ⟨n, v, h5.symm, by rw [h5]; exact hne⟩
        · exact h5

/-- **C179.** The end of a question drops no signature that was entered less than sixty questions before. -/
theorem kept {st : St W K V} {e : Entry K} {life : Nat} (h : e ∈ st.map) (hl : life < e.life + 60) :
    e ∈ (step F st (.drop life)).1.map := by
  simp only [step]
  cases hf : find life st.askers with
  | none => exact h
  | some a =>
    have : e ∈ (gc life st).map := by
      unfold gc
      split
      · exact h
      · refine List.mem_filter.mpr ⟨h, ?_⟩
        simp only [retained, decide_eq_true_eq]
        omega
    exact this

/-! ## The hypotheses are met -/

example : OneByOne (W := Nat) (K := Nat) 2 [.enter 5, .take 0 1, .read 0, .drop 0, .enter 6, .take 1 1, .read 1, .take 1 2, .read 1, .drop 1] :=
  .next (ops := [.enter 5, .take 0 1, .read 0, .drop 0]) [1, 2] (.next (ops := []) [1] .nil)

/-- Two questions at the same time: the second gets what the first one found out. -/
example : (step (fun w k : Nat => w + k) (run (fun w k : Nat => w + k) init
    [.enter 5, .enter 6, .take 1 1, .take 0 1, .read 1]) (.read 0)).2 = some (1, 7) := by
  decide +kernel

example : OneByOne 61 (after (K := Nat) 5 6 1 60) := after_one 5 6 1 60

end Tinymist.SigCache
