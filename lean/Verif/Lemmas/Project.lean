import Verif.Spec.Project
import Verif.Lemmas.Util
namespace Tinymist.Project
variable {Path C : Type} [DecidableEq Path]

theorem set_eq {K A : Type} [DecidableEq K] (f : K → A) (k : K) (a : A) : set f k a k = a := by simp [set]
theorem set_ne {K A : Type} [DecidableEq K] (f : K → A) {k x : K} (a : A) (h : x ≠ k) : set f k a x = f x := by
  simp [set, h]

theorem run_append (m : Machine Path C) (a b : History Path C) : run m (a ++ b) = (run m a).bind fun m => run m b := by
  induction a generalizing m with
  | nil => rfl
  | cons x a ih =>
    obtain ⟨op, clean⟩ := x
    simp only [List.cons_append, run]
    cases step clean m op with
    | none => rfl
    | some m' => exact ih m'

theorem run_snoc {m : Machine Path C} {h : History Path C} {x : Op Path C × (String → Bool)} {m' : Machine Path C}
    (hr : run m (h ++ [x]) = some m') : ∃ m1, run m h = some m1 ∧ step x.2 m1 x.1 = some m' := by
  rw [run_append] at hr
  cases h1 : run m h with
  | none => rw [h1] at hr; cases hr
  | some m1 =>
    rw [h1] at hr
    refine ⟨m1, rfl, ?_⟩
    simp only [Option.bind_some, run] at hr
    cases h2 : step x.2 m1 x.1 with
    | none => rw [h2] at hr; cases hr
    | some m2 => rw [h2] at hr; exact hr

/-- What an invariant of all histories needs. -/
theorem run_inv {I : Machine Path C → History Path C → Prop} {m0 : Machine Path C} (h0 : I m0 [])
    (hs : ∀ m h op clean m', run m0 h = some m → I m h → step clean m op = some m' → I m' (h ++ [(op, clean)]))
    {h : History Path C} {m : Machine Path C} (hr : run m0 h = some m) : I m h := by
  induction h using Util.reverseInd generalizing m with
  | nil => cases hr; exact h0
  | append_singleton h x ih =>
    obtain ⟨m1, a, b⟩ := run_snoc hr
    exact hs m1 h x.1 x.2 m a (ih a) b

theorem step_eq {clean : String → Bool} {m m' : Machine Path C} {op : Op Path C} (h : step clean m op = some m') :
    ∃ m1 b, interrupt m op = some (m1, b) ∧ m' = if b then onAny clean m1 else m1 := by
  unfold step at h
  obtain ⟨r, a, b⟩ := Option.map_eq_some_iff.mp h
  exact ⟨r.1, r.2, a, b.symm⟩

theorem onProject_some {m m' : Machine Path C} {id : String} {f : Proj Path C → Shared × Proj Path C × List String}
    (h : m.onProject id f = some m') :
    ∃ l1 p l2, m.projects = l1 ++ p :: l2 ∧ p.id = id ∧ (∀ q ∈ l1, q.id ≠ id) ∧
      m'.projects = l1 ++ (f p).2.1 :: l2 ∧ m'.sh = (f p).1 ∧ m'.deps = (f p).2.2 ∧ m'.upstream = m.upstream ∧
      m'.dirty = m.dirty ∧ m'.nextUid = m.nextUid ∧ m'.tick = m.tick ∧ m'.estimated = m.estimated ∧
      (p = m.primary ∧ l1 = [] ∨ m'.primary = m.primary ∧ id ≠ m.primary.id) := by
  unfold Machine.onProject at h
  split at h
  · rename_i hid
    injection h with h
    subst h
    exact ⟨[], m.primary, m.dedicates, rfl, hid.symm, fun _ h => (by cases h), rfl, rfl, rfl, rfl, rfl, rfl, rfl, rfl,
      Or.inl ⟨rfl, rfl⟩⟩
  · rename_i hid
    split at h
    · cases h
    · rename_i i hi
      split at h
      · cases h
      · rename_i p hp
        injection h with h
        subst h
        obtain ⟨hlt, h2, h3⟩ := List.findIdx?_eq_some_iff_getElem.mp hi
        rw [List.getElem?_eq_getElem hlt] at hp
        injection hp with hp
        have hsplit : m.dedicates = m.dedicates.take i ++ p :: m.dedicates.drop (i + 1) := by
          rw [← hp]; simp
        have hset : ∀ x, m.dedicates.set i x = m.dedicates.take i ++ x :: m.dedicates.drop (i + 1) := by
          intro x; rw [List.set_eq_take_append_cons_drop, if_pos hlt]
        refine ⟨m.primary :: m.dedicates.take i, p, m.dedicates.drop (i + 1), ?_, ?_, ?_, ?_, rfl, rfl, rfl, rfl, rfl, rfl, rfl,
          Or.inr ⟨rfl, hid⟩⟩
        · unfold Machine.projects; rw [List.cons_append, ← hsplit]
        · rw [hp] at h2; simpa using h2
        · intro q hq
          rcases List.mem_cons.mp hq with rfl | hq
          · exact fun e => hid e.symm
          · obtain ⟨j, hj, rfl⟩ := List.mem_iff_getElem.mp hq
            rw [List.getElem_take]
            have hj' : j < i := by
              have := hj
              rw [List.length_take] at this
              omega
            have := h3 j hj'
            simpa using this
        · unfold Machine.projects; simp only [hset]; rfl

theorem onProject_none {m : Machine Path C} {id : String} {f : Proj Path C → Shared × Proj Path C × List String}
    (h : m.onProject id f = none) : id ∉ m.projects.map (·.id) := by
  unfold Machine.onProject at h
  split at h
  · cases h
  · rename_i hid
    intro hm
    obtain ⟨p, hp, rfl⟩ := List.mem_map.mp hm
    rcases List.mem_cons.mp hp with rfl | hp
    · exact hid rfl
    · split at h
      · rename_i hn
        have := List.findIdx?_eq_none_iff.mp hn p hp
        simp at this
      · rename_i i hi
        obtain ⟨hlt, -⟩ := List.findIdx?_eq_some_iff_getElem.mp hi
        rw [List.getElem?_eq_getElem hlt] at h
        cases h

theorem remove_cases (m : Machine Path C) (id : String) :
    (removeDedicates m id = m ∧ ∀ p ∈ m.dedicates, p.id ≠ id) ∨
    ∃ l1 p l2, m.dedicates = l1 ++ p :: l2 ∧ p.id = id ∧ (∀ q ∈ l1, q.id ≠ id) ∧
      removeDedicates m id = { m with
        sh := { m.sh with notifiedRev := set m.sh.notifiedRev id 0, outs := m.sh.outs ++ [.cleared id true] }
        deps := m.deps.filter (· ≠ id)
        dedicates := l1 ++ l2 } := by
  unfold removeDedicates
  split
  · rename_i hn
    refine Or.inl ⟨rfl, fun p hp => ?_⟩
    have := List.findIdx?_eq_none_iff.mp hn p hp
    simpa using this
  · rename_i i hi
    obtain ⟨hlt, h2, h3⟩ := List.findIdx?_eq_some_iff_getElem.mp hi
    refine Or.inr ⟨m.dedicates.take i, m.dedicates[i], m.dedicates.drop (i + 1), ?_, ?_, ?_, ?_⟩
    · simp
    · simpa using h2
    · intro q hq
      obtain ⟨j, hj, rfl⟩ := List.mem_iff_getElem.mp hq
      rw [List.getElem_take]
      have hj' : j < i := by
        have := hj
        rw [List.length_take] at this
        omega
      have := h3 j hj'
      simpa using this
    · rw [List.eraseIdx_eq_take_drop_succ]

theorem onAny_eq (clean : String → Bool) (m : Machine Path C) :
    (onAny clean m).projects = (eachProj (fun s p => anyReason (clean p.id) s p) m.sh m.projects).2 ∧
    (onAny clean m).sh = (eachProj (fun s p => anyReason (clean p.id) s p) m.sh m.projects).1 ∧
    (onAny clean m).upstream = m.upstream ∧ (onAny clean m).dirty = m.dirty ∧ (onAny clean m).nextUid = m.nextUid ∧
    (onAny clean m).tick = m.tick ∧ (onAny clean m).deps = m.deps := ⟨rfl, rfl, rfl, rfl, rfl, rfl, rfl⟩

theorem eachProj_map {B : Type} (g : Proj Path C → B) (f : Shared → Proj Path C → Shared × Proj Path C)
    (hf : ∀ s p, g (f s p).2 = g p) (s : Shared) (l : List (Proj Path C)) : (eachProj f s l).2.map g = l.map g := by
  induction l generalizing s with
  | nil => rfl
  | cons p l ih => simp only [eachProj, List.map_cons, hf, ih]

theorem emitPending_keeps (s : Shared) (p : Proj Path C) :
    (emitPending s p).2.shadow = p.shadow ∧ (emitPending s p).2.id = p.id ∧ (emitPending s p).2.uid = p.uid ∧
    (emitPending s p).2.stamp = p.stamp ∧ (emitPending s p).2.rev = p.rev ∧ (emitPending s p).2.inactive = p.inactive ∧
    (emitPending s p).2.committed = p.committed ∧ (emitPending s p).2.reason = p.reason ∧
    (emitPending s p).2.snap = p.snap ∧ (emitPending s p).2.isCompiling = p.isCompiling ∧
    (emitPending s p).2.notified = p.notified ∧ (emitPending s p).2.last = p.last := by
  unfold emitPending
  split
  · simp
  · split
    · simp
    · simp only
      split <;> simp

theorem mayCompile_keeps (s : Shared) (p : Proj Path C) :
    (mayCompile s p).2.shadow = p.shadow ∧ (mayCompile s p).2.id = p.id ∧ (mayCompile s p).2.uid = p.uid ∧
    (mayCompile s p).2.stamp = p.stamp ∧ (mayCompile s p).2.rev = p.rev ∧ (mayCompile s p).2.inactive = p.inactive ∧
    (mayCompile s p).2.committed = p.committed ∧ (mayCompile s p).2.notified = p.notified ∧
    (mayCompile s p).2.last = p.last := by
  unfold mayCompile
  split <;> simp

theorem anyReason_keeps (clean : Bool) (s : Shared) (p : Proj Path C) :
    (anyReason clean s p).2.shadow = p.shadow ∧ (anyReason clean s p).2.id = p.id ∧ (anyReason clean s p).2.uid = p.uid ∧
    (anyReason clean s p).2.stamp = p.stamp ∧ (anyReason clean s p).2.rev = p.rev ∧
    (anyReason clean s p).2.inactive = p.inactive ∧ (anyReason clean s p).2.committed = p.committed ∧
    (anyReason clean s p).2.notified = p.notified ∧ (anyReason clean s p).2.last = p.last := by
  unfold anyReason
  split
  · simp
  · simp only
    split
    · obtain ⟨a, b, c, d, e, f, g, h, i, j, k, l⟩ := emitPending_keeps
        { s with verdicts := s.verdicts ++ [(p.uid, p.stamp)] } { p with pending := p.pending.see p.reason, reason := .none }
      exact ⟨a, b, c, d, e, f, g, k, l⟩
    · obtain ⟨a, b, c, d, e, f, g, k, l⟩ := mayCompile_keeps s { p with pending := .none, emitted := p.reason }
      exact ⟨a, b, c, d, e, f, g, k, l⟩

theorem extCompiled_keeps (s : Shared) (p : Proj Path C) (a : Art) :
    (extCompiled s p a).2.shadow = p.shadow ∧ (extCompiled s p a).2.id = p.id ∧ (extCompiled s p a).2.uid = p.uid ∧
    (extCompiled s p a).2.stamp = p.stamp ∧ (extCompiled s p a).2.rev = p.rev ∧
    (extCompiled s p a).2.inactive = p.inactive ∧ (extCompiled s p a).2.committed = p.committed ∧
    (extCompiled s p a).2.reason = p.reason ∧ (extCompiled s p a).2.snap = p.snap := by
  unfold extCompiled
  split
  · simp
  · obtain ⟨a, b, c, d, e, f, g, h, i, j, k, l⟩ := emitPending_keeps s
      { p with notified := a.snap.rev, isCompiling := false, last := some a }
    exact ⟨a, b, c, d, e, f, g, h, i⟩

theorem commit_keeps (p : Proj Path C) (a : Art) : (p.commit a).shadow = p.shadow ∧ (p.commit a).id = p.id ∧
    (p.commit a).uid = p.uid ∧ (p.commit a).stamp = p.stamp ∧ (p.commit a).rev = p.rev ∧
    (p.commit a).inactive = p.inactive ∧ (p.commit a).reason = p.reason ∧ (p.commit a).snap = p.snap ∧
    (p.commit a).isCompiling = p.isCompiling ∧ (p.commit a).notified = p.notified ∧ (p.commit a).last = p.last ∧
    (p.commit a).pending = p.pending ∧ (p.commit a).emitted = p.emitted := by
  unfold Proj.commit
  split <;> simp

theorem onAny_shadow (clean : String → Bool) (m : Machine Path C) :
    (onAny clean m).projects.map (·.shadow) = m.projects.map (·.shadow) := by
  rw [(onAny_eq clean m).1]
  exact eachProj_map _ _ (fun s p => (anyReason_keeps _ s p).1) _ _

theorem onAny_ids (clean : String → Bool) (m : Machine Path C) :
    (onAny clean m).projects.map (·.id) = m.projects.map (·.id) := by
  rw [(onAny_eq clean m).1]
  exact eachProj_map _ _ (fun s p => (anyReason_keeps _ s p).2.1) _ _

theorem mapAll_projects (m : Machine Path C) (f : Proj Path C → Proj Path C) :
    (m.mapAll f).projects = m.projects.map f := rfl

end Tinymist.Project
