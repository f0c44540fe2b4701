import Verif.Lemmas.Packages
/-! C78: a package is found where it should be, and is whole. -/
namespace Tinymist.Packages
variable {B : Type}

/-- The files of some published archive of a package kept in `k`. -/
def Whole (Published : Spec → List (Text × B) → Prop) (k : Text) (d : Dir B) : Prop :=
  ∃ spec files, subdir spec = k ∧ Published spec files ∧ Holds d files

/-- What is known of a package while a call is in a phase. -/
def PhaseOk (Published : Spec → List (Text × B) → Prop) (cache : Text → Option (Dir B)) (spec : Spec) : Phase B → Prop
  | .request => cache (subdir spec) = none
  | .create files ok => cache (subdir spec) = none ∧ (ok = true → Published spec files)
  | .unpack files ok => ∃ d w, cache (subdir spec) = some d ∧ Holds d w ∧ (ok = true → Published spec (w ++ files))
  | .final => ∃ d, cache (subdir spec) = some d ∧ Whole Published (subdir spec) d
  | _ => True

structure Inv (Published : Spec → List (Text × B) → Prop) (s : St B) : Prop where
  phase : ∀ (i : Nat) spec p, s.calls[i]? = some (spec, p) → PhaseOk Published s.cache spec p
  one : ∀ (i j : Nat) spec p spec' p', s.calls[i]? = some (spec, p) → s.calls[j]? = some (spec', p') → p.Busy → p'.Busy →
    subdir spec = subdir spec' → i = j
  idle : ∀ k, Quiet s k → ∀ d, s.cache k = some d → Whole Published k d
  ret : ∀ r ∈ s.returned, r.result = .cache → ∃ d, r.seen = some d ∧ Whole Published (subdir r.spec) d

theorem phase_congr {P : Spec → List (Text × B) → Prop} {c c' : Text → Option (Dir B)} {spec : Spec} {p : Phase B}
    (h : c' (subdir spec) = c (subdir spec)) (hp : PhaseOk P c spec p) : PhaseOk P c' spec p := by
  cases p <;> simp only [PhaseOk, h] at * <;> exact hp

theorem phase_idle {P : Spec → List (Text × B) → Prop} {c : Text → Option (Dir B)} {spec : Spec} {p : Phase B} (h : ¬ p.Busy) :
    PhaseOk P c spec p := by
  cases p <;> simp [Phase.Busy] at h <;> trivial

theorem inv_set {P : Spec → List (Text × B) → Prop} {s s' : St B} (hI : Inv P s) {i : Nat} {spec : Spec} {p p' : Phase B}
    (hi : s.calls[i]? = some (spec, p)) (hcalls : s'.calls = s.calls.set i (spec, p'))
    (hother : ∀ k, k ≠ subdir spec → s'.cache k = s.cache k) (hsame : p.Busy ∨ s'.cache = s.cache)
    (hphase : PhaseOk P s'.cache spec p')
    (hidle : p.Busy → ¬ p'.Busy → ∀ d, s'.cache (subdir spec) = some d → Whole P (subdir spec) d)
    (hnew : ¬ p.Busy → p'.Busy → Quiet s (subdir spec))
    (hret : ∀ r ∈ s'.returned, r.result = .cache → ∃ d, r.seen = some d ∧ Whole P (subdir r.spec) d) : Inv P s' := by
  have hlen : i < s.calls.length := (List.getElem?_eq_some_iff.mp hi).1
  have hself : s'.calls[i]? = some (spec, p') := by rw [hcalls]; exact List.getElem?_set_self hlen
  have hne : ∀ j : Nat, j ≠ i → s'.calls[j]? = s.calls[j]? := fun j hj => by
    rw [hcalls]; exact List.getElem?_set_ne (fun x => hj x.symm)
  refine ⟨?_, ?_, ?_, hret⟩
  · intro j sp q hj
    by_cases hji : j = i
    · subst hji
      rw [hself] at hj; cases hj; exact hphase
    · rw [hne j hji] at hj
      by_cases hq : q.Busy
      · refine phase_congr ?_ (hI.phase j sp q hj)
        rcases hsame with hb | hb
        · apply hother
          intro hk
          exact hji (hI.one j i sp q spec p hj hi hq hb hk)
        · rw [hb]
      · exact phase_idle hq
  · intro j j' sp q sp' q' hj hj' hq hq' hk
    by_cases hji : j = i <;> by_cases hji' : j' = i
    · rw [hji, hji']
    · subst hji
      rw [hself] at hj; cases hj
      rw [hne j' hji'] at hj'
      by_cases hb : p.Busy
      · exact hI.one _ _ _ _ _ _ hi hj' hb hq' hk
      · exact absurd hq' (hnew hb hq _ (List.mem_of_getElem? hj') hk.symm)
    · subst hji'
      rw [hself] at hj'; cases hj'
      rw [hne j hji] at hj
      by_cases hb : p.Busy
      · exact hI.one _ _ _ _ _ _ hj hi hq hb hk
      · exact absurd hq (hnew hb hq' _ (List.mem_of_getElem? hj) hk)
    · rw [hne j hji] at hj
      rw [hne j' hji'] at hj'
      exact hI.one _ _ _ _ _ _ hj hj' hq hq' hk
  · intro k hk d hd
    have hp' : subdir spec = k → ¬ p'.Busy := hk _ (List.mem_of_getElem? hself)
    by_cases hks : k = subdir spec
    · subst hks
      by_cases hb : p.Busy
      · exact hidle hb (hp' rfl) d hd
      · rcases hsame with h | h
        · exact absurd h hb
        · rw [h] at hd
          refine hI.idle _ (fun c hc hck => ?_) d hd
          obtain ⟨j, hj⟩ := List.mem_iff_getElem?.mp hc
          by_cases hji : j = i
          · subst hji
            rw [hi] at hj; cases hj; exact hb
          · exact hk c (List.mem_iff_getElem?.mpr ⟨j, (hne j hji).trans hj⟩) hck
    · rw [hother k hks] at hd
      refine hI.idle _ (fun c hc hck => ?_) d hd
      obtain ⟨j, hj⟩ := List.mem_iff_getElem?.mp hc
      by_cases hji : j = i
      · subst hji
        rw [hi] at hj; cases hj; exact absurd hck.symm hks
      · exact hk c (List.mem_iff_getElem?.mpr ⟨j, (hne j hji).trans hj⟩) hck

theorem holds_empty : Holds (fun _ => none : Dir B) [] := fun _ => rfl

theorem holds_put {d : Dir B} {w : List (Text × B)} (h : Holds d w) (f : Text × B) : Holds (d.put f) (w ++ [f]) := by
  intro x
  simp only [Dir.put, List.reverse_append, List.reverse_cons, List.reverse_nil, List.nil_append, List.cons_append, List.find?_cons]
  by_cases hx : x = f.1
  · simp [hx]
  · have : ¬ f.1 = x := fun h => hx h.symm
    simp only [hx, if_false, this, decide_false]
    exact h x

theorem ret_append {P : Spec → List (Text × B) → Prop} {s : St B} (hI : Inv P s) {r : Ret B}
    (h : r.result = .cache → ∃ d, r.seen = some d ∧ Whole P (subdir r.spec) d) :
    ∀ x ∈ s.returned ++ [r], x.result = .cache → ∃ d, x.seen = some d ∧ Whole P (subdir x.spec) d := by
  intro x hx
  rcases List.mem_append.mp hx with hx | hx
  · exact hI.ret x hx
  · rw [List.mem_singleton] at hx; rw [hx]; exact h

theorem setCache_other {s : St B} {k : Text} {d : Option (Dir B)} {x : Text} (h : x ≠ k) : (s.setCache k d).cache x = s.cache x := by
  simp [St.setCache, h]
theorem setCache_self {s : St B} {k : Text} {d : Option (Dir B)} : (s.setCache k d).cache k = d := by simp [St.setCache]

theorem inv_move {P : Spec → List (Text × B) → Prop} {s : St B} (hI : Inv P s) {i : Nat} {resp : Resp B} {fails : Bool}
    (ha : Allowed P s (.move i resp fails)) : Inv P (move s i resp fails) := by
  cases hi : s.calls[i]? with
  | none => simp only [move, hi]; exact hI
  | some c =>
    obtain ⟨spec, p⟩ := c
    obtain ⟨ha1, ha2, ha3⟩ := ha spec p hi
    have hph := hI.phase i spec p hi
    cases p with
    | data =>
      simp only [move, hi]
      cases hd : s.data (subdir spec) with
      | some d =>
        exact inv_set hI hi rfl (fun _ _ => rfl) (Or.inr rfl) trivial (fun h => h.elim) (fun _ h => h.elim)
          (ret_append hI (fun h => by cases h))
      | none =>
        exact inv_set hI hi rfl (fun _ _ => rfl) (Or.inr rfl) trivial (fun h => h.elim) (fun _ h => h.elim) hI.ret
    | cache =>
      simp only [move, hi]
      have hq : Quiet s (subdir spec) := by
        intro c hc hk
        obtain ⟨j, hj⟩ := List.mem_iff_getElem?.mp hc
        exact ha1 rfl j c.1 c.2 hj hk
      cases hd : s.cache (subdir spec) with
      | some d =>
        exact inv_set hI hi rfl (fun _ _ => rfl) (Or.inr rfl) trivial (fun h => h.elim) (fun _ h => h.elim)
          (ret_append hI fun _ => ⟨d, rfl, hI.idle _ hq d hd⟩)
      | none =>
        simp only
        split
        · exact inv_set hI hi rfl (fun _ _ => rfl) (Or.inr rfl) hd (fun h => h.elim) (fun _ _ => hq) hI.ret
        · exact inv_set hI hi rfl (fun _ _ => rfl) (Or.inr rfl) trivial (fun h => h.elim) (fun _ h => h.elim)
            (ret_append hI (fun h => by cases h))
    | request =>
      simp only [move, hi]
      have hc : s.cache (subdir spec) = none := hph
      have hno : ∀ d, s.cache (subdir spec) = some d → Whole P (subdir spec) d := fun d hd => by rw [hc] at hd; cases hd
      cases resp with
      | notFound =>
        exact inv_set hI hi rfl (fun _ _ => rfl) (Or.inr rfl) trivial (fun _ _ => hno) (fun h => absurd trivial h)
          (ret_append hI (fun h => by cases h))
      | failed =>
        exact inv_set hI hi rfl (fun _ _ => rfl) (Or.inr rfl) trivial (fun _ _ => hno) (fun h => absurd trivial h)
          (ret_append hI (fun h => by cases h))
      | archive files ok =>
        refine inv_set hI hi rfl (fun _ _ => rfl) (Or.inr rfl) ⟨hc, ?_⟩ (fun _ _ => hno) (fun h => absurd trivial h) hI.ret
        rintro rfl
        exact ha3 rfl files rfl
    | create files ok =>
      simp only [move, hi]
      obtain ⟨hc, hpub⟩ := hph
      cases fails with
      | true =>
        exact inv_set hI hi rfl (fun _ _ => rfl) (Or.inr rfl) trivial (fun _ h => absurd trivial h) (fun h => absurd trivial h) hI.ret
      | false =>
        simp only [hc, Bool.false_eq_true, if_false]
        exact inv_set hI hi rfl (fun _ h => setCache_other h) (Or.inl trivial) ⟨_, [], setCache_self, holds_empty, hpub⟩
          (fun _ h => absurd trivial h) (fun h => absurd trivial h) hI.ret
    | unpack files ok =>
      obtain ⟨d, w, hc, hw, hpub⟩ := hph
      cases files with
      | cons f files =>
        simp only [move, hi]
        cases fails with
        | true =>
          exact inv_set hI hi rfl (fun _ _ => rfl) (Or.inr rfl) trivial (fun _ h => absurd trivial h) (fun h => absurd trivial h) hI.ret
        | false =>
          simp only [hc, Bool.false_eq_true, if_false]
          exact inv_set hI hi rfl (fun _ h => setCache_other h) (Or.inl trivial)
            ⟨_, w ++ [f], setCache_self, holds_put hw f, fun h => by rw [List.append_assoc]; exact hpub h⟩
            (fun _ h => absurd trivial h) (fun h => absurd trivial h) hI.ret
      | nil =>
        cases ok with
        | true =>
          simp only [move, hi]
          refine inv_set hI hi rfl (fun _ _ => rfl) (Or.inr rfl) ?_ (fun _ h => absurd trivial h) (fun h => absurd trivial h) hI.ret
          exact ⟨d, hc, spec, w, rfl, by simpa using hpub rfl, hw⟩
        | false =>
          simp only [move, hi]
          exact inv_set hI hi rfl (fun _ _ => rfl) (Or.inr rfl) trivial (fun _ h => absurd trivial h) (fun h => absurd trivial h) hI.ret
    | remove =>
      simp only [move, hi, ha2 rfl, Bool.false_eq_true, if_false]
      refine inv_set hI hi rfl (fun _ h => setCache_other h) (Or.inl trivial) trivial (fun _ _ d hd => ?_) (fun h => absurd trivial h)
        (ret_append hI (fun h => by cases h))
      rw [show ((s.setCache (subdir spec) none).give i spec .malformed none).cache (subdir spec) = none from setCache_self] at hd
      cases hd
    | final =>
      obtain ⟨d, hc, hwh⟩ := hph
      simp only [move, hi, hc]
      refine inv_set hI hi rfl (fun _ _ => rfl) (Or.inr rfl) trivial (fun _ _ d' hd => ?_) (fun h => absurd trivial h)
        (ret_append hI fun _ => ⟨d, rfl, hwh⟩)
      rw [show (s.give i spec .cache (some d)).cache (subdir spec) = some d from hc] at hd
      cases hd; exact hwh
    | ended r => simp only [move, hi]; exact hI

theorem inv_step {P : Spec → List (Text × B) → Prop} {s : St B} (hI : Inv P s) {op : Op B} (ha : Allowed P s op) : Inv P (step s op) := by
  cases op with
  | move i resp fails => exact inv_move hI ha
  | install k d => exact ⟨hI.phase, hI.one, hI.idle, hI.ret⟩
  | call spec =>
    have hget : ∀ (j : Nat) sp q, (s.calls ++ [(spec, .data)])[j]? = some (sp, q) → q.Busy → s.calls[j]? = some (sp, q) := by
      intro j sp q hj hq
      by_cases hlt : j < s.calls.length
      · rwa [List.getElem?_append_left hlt] at hj
      · rw [List.getElem?_append_right (by omega)] at hj
        have : (sp, q) ∈ [(spec, Phase.data)] := List.mem_of_getElem? hj
        simp only [List.mem_singleton, Prod.mk.injEq] at this
        rw [this.2] at hq; exact hq.elim
    refine ⟨?_, ?_, ?_, hI.ret⟩
    · intro j sp q hj
      by_cases hq : q.Busy
      · exact hI.phase j sp q (hget j sp q hj hq)
      · exact phase_idle hq
    · intro j j' sp q sp' q' hj hj' hq hq' hk
      exact hI.one j j' sp q sp' q' (hget j sp q hj hq) (hget j' sp' q' hj' hq') hq hq' hk
    · intro k hk d hd
      exact hI.idle k (fun c hc => hk c (List.mem_append_left _ hc)) d hd
  | crash =>
    refine ⟨fun i sp q h => by simp [step] at h, fun i j sp q sp' q' h => by simp [step] at h, ?_, hI.ret⟩
    intro k _ d hd
    have hd : s.cache k = some d := hd
    by_cases hq : Quiet s k
    · exact hI.idle k hq d hd
    · unfold Quiet at hq
      simp only [Classical.not_forall, Classical.not_not] at hq
      obtain ⟨⟨sp, q⟩, hc, hk, hb⟩ := hq
      obtain ⟨j, hj⟩ := List.mem_iff_getElem?.mp hc
      have hw : ¬ q.Writing := ha _ hc
      have hph := hI.phase j sp q hj
      simp only at hk
      subst hk
      cases q with
      | request => rw [show s.cache (subdir sp) = none from hph] at hd; cases hd
      | create files ok => rw [hph.1] at hd; cases hd
      | unpack files ok => exact absurd trivial hw
      | remove => exact absurd trivial hw
      | final =>
        obtain ⟨d', hd', hwh⟩ := hph
        rw [hd'] at hd; cases hd; exact hwh
      | data => exact hb.elim
      | cache => exact hb.elim
      | ended r => exact hb.elim

/-- C78: as long as no package is looked for while another call downloads it, the server is not killed while it unpacks, and broken
downloads can be removed: every package found in the cache has exactly the files of an archive published for it. -/
theorem found_whole_partial (Published : Spec → List (Text × B) → Prop) (data cache : Text → Option (Dir B)) (ops : List (Op B))
    (hstart : ∀ k d, cache k = some d → ∃ spec files, subdir spec = k ∧ Published spec files ∧ Holds d files)
    (hops : Orderly Published (init data cache) ops) (hplain : ∀ spec files, Published spec files → spec.Plain) :
    ∀ r ∈ (run (init data cache) ops).returned, r.spec.Plain → r.result = .cache →
      ∃ d files, r.seen = some d ∧ Published r.spec files ∧ Holds d files := by
  have key : ∀ (ops : List (Op B)) (s : St B), Inv Published s → Orderly Published s ops → Inv Published (run s ops) := by
    intro ops
    induction ops with
    | nil => intro s h _; exact h
    | cons op ops ih => intro s h ho; exact ih _ (inv_step h ho.1) ho.2
  have hinit : Inv Published (init data cache) :=
    ⟨fun i sp q h => by simp [init] at h, fun i j sp q sp' q' h => by simp [init] at h, fun k _ d hd => hstart k d hd,
      fun r h => by simp [init] at h⟩
  intro r hr hp hc
  obtain ⟨d, hd, spec, files, hk, hpub, hh⟩ := (key ops _ hinit hops).ret r hr hc
  have := subdir_inj (hplain _ _ hpub) hp hk
  subst this
  exact ⟨d, files, hd, hpub, hh⟩

end Tinymist.Packages
