import Verif.Spec.EditorDiag
namespace Tinymist.EditorDiag
open Spec
variable {D : Type}

theorem lookup_append_of_ne {l : Assoc Proj (List D)} {k p : Proj} {v : List D} (h : p ≠ k) :
    (l ++ [(k, v)]).lookup p = l.lookup p := by
  induction l with
  | nil =>
    have : (p == k) = false := by simpa using h
    simp [List.lookup, this]
  | cons a l ih =>
    obtain ⟨x, y⟩ := a
    simp only [List.cons_append, List.lookup_cons]
    split
    · rfl
    · exact ih

theorem lookup_erase {l : Assoc Proj (List D)} {k p : Proj} :
    (l.erase k).lookup p = if p = k then none else l.lookup p := by
  induction l with
  | nil => simp [Assoc.erase]
  | cons a l ih =>
    obtain ⟨x, y⟩ := a
    unfold Assoc.erase at ih ⊢
    by_cases hx : x = k
    · subst hx
      rw [List.filter_cons_of_neg (by simp), ih]
      by_cases hp : p = x
      · simp [hp]
      · have : (p == x) = false := by simpa using hp
        simp [List.lookup_cons, this]
    · rw [List.filter_cons_of_pos (by simp [hx])]
      simp only [List.lookup_cons]
      rw [ih]
      by_cases hp : p = x
      · subst hp; simp [hx]
      · have : (p == x) = false := by simpa using hp
        simp [this]

theorem lookup_put {l : Assoc Proj (List D)} {k p : Proj} {v : List D} :
    (l.put k v).lookup p = if p = k then some v else l.lookup p := by
  unfold Assoc.put
  by_cases hp : p = k
  · subst hp
    rw [if_pos rfl]
    have h : (l.erase p).lookup p = none := by rw [lookup_erase]; simp
    generalize l.erase p = l' at h
    induction l' with
    | nil => simp
    | cons a l' ih =>
      obtain ⟨x, y⟩ := a
      simp only [List.lookup_cons] at h
      simp only [List.cons_append, List.lookup_cons]
      split at h
      · cases h
      · exact ih h
  · rw [lookup_append_of_ne hp, if_neg hp, lookup_erase, if_neg hp]

theorem erase_keys_nodup {l : Assoc Proj (List D)} (k : Proj) (h : (l.map (·.1)).Nodup) :
    ((l.erase k).map (·.1)).Nodup :=
  h.sublist (List.filter_sublist.map _)

theorem put_keys_nodup {l : Assoc Proj (List D)} (k : Proj) (v : List D) (h : (l.map (·.1)).Nodup) :
    ((l.put k v).map (·.1)).Nodup := by
  unfold Assoc.put
  rw [List.map_append, List.nodup_append]
  refine ⟨erase_keys_nodup k h, by simp, ?_⟩
  intro a ha b hb
  simp only [List.map_cons, List.map_nil, List.mem_singleton] at hb
  rw [List.mem_map] at ha
  obtain ⟨x, hx, rfl⟩ := ha
  unfold Assoc.erase at hx
  rw [List.mem_filter] at hx
  simpa [hb] using hx.2

/-- What the client shows after one more message. -/
theorem shown_append (sent : List (Url × List D)) (m : Url × List D) (u : Url) :
    shown (sent ++ [m]) u = if u = m.1 then m.2 else shown sent u := by
  unfold shown
  rw [List.reverse_append]
  simp only [List.reverse_cons, List.reverse_nil, List.nil_append, List.singleton_append, List.find?_cons]
  by_cases h : u = m.1
  · subst h; simp
  · have : (m.1 == u) = false := by simpa using fun hc => h hc.symm
    simp [this, h]

/-- The table agrees with a function `cur` giving the current diagnostics of each project and file,
and the client shows the table. -/
structure Agrees (s : State D) (cur : Proj → Url → Option (List D)) : Prop where
  nodup : ∀ u, ((s.diagnostics u).map (·.1)).Nodup
  look : ∀ u p, (s.diagnostics u).lookup p = cur p u
  shows : ∀ u, shown s.sent u = (s.diagnostics u).flatMap (·.2)

theorem publishFile_agrees {s : State D} {cur : Proj → Url → Option (List D)} (h : Agrees s cur)
    (id : Proj) (uri : Url) (next : Option (List D)) :
    Agrees (publishFile s id uri next) (fun p u => if p = id ∧ u = uri then next else cur p u) := by
  constructor
  · intro u
    simp only [publishFile]
    split
    · cases next with
      | none => exact erase_keys_nodup _ (h.nodup _)
      | some n => exact put_keys_nodup _ _ (h.nodup _)
    · exact h.nodup _
  · intro u p
    simp only [publishFile]
    by_cases hu : u = uri
    · subst hu
      rw [if_pos rfl]
      cases next with
      | none => simp only [lookup_erase, h.look]; simp
      | some n => simp only [lookup_put, h.look]; simp
    · simp [hu, h.look]
  · intro u
    simp only [publishFile]
    rw [shown_append]
    by_cases hu : u = uri
    · subst hu
      simp only [if_true]
      cases next with
      | none => simp [Assoc.erase]
      | some n => simp [Assoc.put, Assoc.erase]
    · simp [hu, h.shows]

theorem publishFile_affect (s : State D) (id : Proj) (uri : Url) (next : Option (List D)) :
    (publishFile s id uri next).affectMap = s.affectMap := rfl

/-- First loop of `publish`. -/
theorem clear_loop (id : Proj) (keep : Url → Bool) (uris : List Url) (s : State D)
    (cur : Proj → Url → Option (List D)) (h : Agrees s cur) :
    Agrees (uris.foldl (fun st uri => if keep uri then st else publishFile st id uri none) s)
      (fun p u => if p = id ∧ u ∈ uris ∧ keep u = false then none else cur p u) ∧
    (uris.foldl (fun st uri => if keep uri then st else publishFile st id uri none) s).affectMap = s.affectMap := by
  induction uris generalizing s cur with
  | nil => simpa using h
  | cons x xs ih =>
    simp only [List.foldl_cons]
    by_cases hk : keep x
    · rw [if_pos hk]
      have := ih s cur h
      refine ⟨?_, this.2⟩
      have e : (fun p u => if p = id ∧ u ∈ x :: xs ∧ keep u = false then none else cur p u) =
          (fun p u => if p = id ∧ u ∈ xs ∧ keep u = false then none else cur p u) := by
        funext p u
        by_cases hu : u = x
        · subst hu; simp [hk]
        · simp [hu]
      rw [e]; exact this.1
    · rw [if_neg hk]
      have := ih _ _ (publishFile_agrees h id x none)
      refine ⟨?_, by rw [this.2]; rfl⟩
      have e : (fun p u => if p = id ∧ u ∈ x :: xs ∧ keep u = false then none else cur p u) =
          (fun p u => if p = id ∧ u ∈ xs ∧ keep u = false then none else
            if p = id ∧ u = x then none else cur p u) := by
        funext p u
        by_cases hu : u = x
        · subst hu; simp only [List.mem_cons, true_or, true_and]; simp at hk; simp only [hk, and_true]; grind
        · simp [hu]
      rw [e]; exact this.1

/-- Second loop of `publish`. -/
theorem set_loop (id : Proj) (m : DiagnosticsMap D) (hm : (m.map (·.1)).Nodup) (s : State D)
    (cur : Proj → Url → Option (List D)) (h : Agrees s cur) :
    Agrees (m.foldl (fun st p => publishFile st id p.1 (some p.2)) s)
      (fun p u => if p = id ∧ u ∈ m.map (·.1) then m.lookup u else cur p u) ∧
    (m.foldl (fun st p => publishFile st id p.1 (some p.2)) s).affectMap = s.affectMap := by
  induction m generalizing s cur with
  | nil => simpa using h
  | cons x xs ih =>
    obtain ⟨k, v⟩ := x
    simp only [List.map_cons, List.nodup_cons] at hm
    simp only [List.foldl_cons]
    have := ih hm.2 _ _ (publishFile_agrees h id k (some v))
    refine ⟨?_, by rw [this.2]; rfl⟩
    have e : (fun p u => if p = id ∧ u ∈ List.map (·.1) ((k, v) :: xs) then List.lookup u ((k, v) :: xs) else cur p u) =
        (fun p u => if p = id ∧ u ∈ xs.map (·.1) then xs.lookup u else
          if p = id ∧ u = k then some v else cur p u) := by
      funext p u
      simp only [List.map_cons, List.mem_cons, List.lookup_cons]
      by_cases hu : u = k
      · subst hu
        by_cases hp : p = id
        · have hn : ¬ (∃ x, (u, x) ∈ xs) := by simpa using hm.1
          simp [hp, hn]
        · simp [hp]
      · have : (u == k) = false := by simpa using hu
        simp only [this, hu, false_or, and_false, if_false]
    rw [e]; exact this.1

theorem hasKey_iff (m : DiagnosticsMap D) (u : Url) : hasKey m u = true ↔ u ∈ m.map (·.1) := by
  unfold hasKey
  rw [List.any_eq_true, List.mem_map]
  constructor
  · rintro ⟨x, hx, he⟩; exact ⟨x, hx, by simpa using he⟩
  · rintro ⟨x, hx, he⟩; exact ⟨x, hx, by simpa using he⟩

theorem lookup_isNone {m : DiagnosticsMap D} {u : Url} (h : u ∉ m.map (·.1)) : m.lookup u = none := by
  induction m with
  | nil => rfl
  | cons a m ih =>
    obtain ⟨x, y⟩ := a
    simp only [List.map_cons, List.mem_cons, not_or] at h
    have : (u == x) = false := by simpa using h.1
    simp [List.lookup_cons, this, ih h.2]

/-- The invariant of the actor. -/
structure Inv (s : State D) (rep : Proj → Option (DiagnosticsMap D)) : Prop where
  agrees : Agrees s (fun p u => ((rep p).getD []).lookup u)
  affect : ∀ p, s.affectMap p = (rep p).map (·.map (·.1))

theorem publish_inv {s : State D} {rep : Proj → Option (DiagnosticsMap D)} (h : Inv s rep)
    (id : Proj) (next : Option (DiagnosticsMap D)) (hwf : ∀ m, next = some m → (m.map (·.1)).Nodup) :
    Inv (publish s id next) (fun p => if p = id then next else rep p) := by
  unfold publish
  simp only []
  have h1 : Agrees ({ s with affectMap := fun p => if p = id then next.map (·.map (·.1)) else s.affectMap p } : State D)
      (fun p u => ((rep p).getD []).lookup u) := ⟨h.agrees.nodup, h.agrees.look, h.agrees.shows⟩
  obtain ⟨a1, a2⟩ := clear_loop id (fun uri => (next.map (hasKey · uri)).getD false) ((s.affectMap id).getD []) _ _ h1
  have hnd : ((next.getD []).map (·.1)).Nodup := by
    cases next with
    | none => simp
    | some m => exact hwf m rfl
  obtain ⟨b1, b2⟩ := set_loop id (next.getD []) hnd _ _ a1
  constructor
  · have e : (fun p u => (((if p = id then next else rep p) : Option (DiagnosticsMap D)).getD []).lookup u) =
      (fun p u => if p = id ∧ u ∈ (next.getD []).map (·.1) then (next.getD []).lookup u else
        if p = id ∧ u ∈ (s.affectMap id).getD [] ∧ (next.map (hasKey · u)).getD false = false then none
        else ((rep p).getD []).lookup u) := by
      funext p u
      by_cases hp : p = id
      · subst hp
        simp only [if_true, true_and]
        by_cases hu : u ∈ (next.getD []).map (·.1)
        · rw [if_pos hu]
        · rw [if_neg hu, lookup_isNone hu]
          by_cases ha : u ∈ (s.affectMap p).getD []
          · rw [if_pos]
            refine ⟨ha, ?_⟩
            cases next with
            | none => rfl
            | some m =>
              simp only [Option.map_some, Option.getD_some]
              cases hk : hasKey m u with
              | false => rfl
              | true => exact absurd ((hasKey_iff m u).mp hk) hu
          · rw [if_neg (by simp [ha])]
            rw [h.affect] at ha
            symm
            apply lookup_isNone
            cases hr : rep p with
            | none => simp
            | some m => simpa [hr] using ha
      · simp [hp]
    rw [e]; exact b1
  · intro p
    rw [b2, a2]
    simp only []
    split
    · rfl
    · exact h.affect p

theorem lastReport_append (reqs : List (Proj × Option (DiagnosticsMap D))) (r : Proj × Option (DiagnosticsMap D)) (p : Proj) :
    lastReport (reqs ++ [r]) p = if p = r.1 then r.2 else lastReport reqs p := by
  unfold lastReport
  rw [List.reverse_append]
  simp only [List.reverse_cons, List.reverse_nil, List.nil_append, List.singleton_append, List.find?_cons]
  by_cases h : p = r.1
  · subst h; simp
  · have : (r.1 == p) = false := by simpa using fun hc => h hc.symm
    simp [this, h]

theorem run_append (s : State D) (a b : List (Proj × Option (DiagnosticsMap D))) :
    run s (a ++ b) = run (run s a) b := List.foldl_append

theorem run_inv (reqs : List (Proj × Option (DiagnosticsMap D))) (hwf : WellFormed reqs) :
    Inv (run (init D) reqs) (lastReport reqs) := by
  generalize hn : reqs.length = n
  induction n generalizing reqs with
  | zero =>
    have : reqs = [] := List.length_eq_zero_iff.mp hn
    subst this
    constructor
    · constructor <;> simp [run, init, shown, lastReport]
    · intro p; simp [run, init, lastReport]
  | succ n ih =>
    have hne : reqs ≠ [] := by intro hc; subst hc; simp at hn
    obtain ⟨a, r, rfl⟩ : ∃ a r, reqs = a ++ [r] := ⟨_, _, (List.dropLast_concat_getLast hne).symm⟩
    simp at hn
    have hwa : WellFormed a := fun x hx => hwf x (by simp [hx])
    have := publish_inv (ih a hwa hn) r.1 r.2 (hwf r (by simp))
    rw [run_append]
    have e : lastReport (a ++ [r]) = (fun p => if p = r.1 then r.2 else lastReport a p) := by
      funext p; exact lastReport_append a r p
    rw [e]; exact this

/-- A table with distinct keys, read through any list of distinct keys covering it. -/
theorem flatMap_lookup_perm (l : Assoc Proj (List D)) (ps : List Proj) (hl : (l.map (·.1)).Nodup)
    (hps : ps.Nodup) (hsub : ∀ k ∈ l.map (·.1), k ∈ ps) :
    (l.flatMap (·.2)).Perm (ps.flatMap fun p => (l.lookup p).getD []) := by
  induction l generalizing ps with
  | nil => simp
  | cons a l ih =>
    obtain ⟨k, v⟩ := a
    simp only [List.map_cons, List.nodup_cons] at hl
    have hk : k ∈ ps := hsub k (by simp)
    have hperm := List.perm_cons_erase hk
    have h1 : (ps.flatMap fun p => (List.lookup p ((k, v) :: l)).getD []).Perm
        ((k :: ps.erase k).flatMap fun p => (List.lookup p ((k, v) :: l)).getD []) := hperm.flatMap_right _
    refine List.Perm.trans ?_ h1.symm
    rw [List.flatMap_cons, List.flatMap_cons]
    have e1 : (List.lookup k ((k, v) :: l)).getD [] = v := by simp
    rw [e1]
    apply List.Perm.append_left
    have e2 : ((ps.erase k).flatMap fun p => (List.lookup p ((k, v) :: l)).getD []) =
        ((ps.erase k).flatMap fun p => (l.lookup p).getD []) := by
      rw [List.flatMap_def, List.flatMap_def]
      congr 1
      apply List.map_congr_left
      intro p hp
      have hne : p ≠ k := by
        rintro rfl
        exact (List.Nodup.not_mem_erase hps) hp
      have : (p == k) = false := by simpa using hne
      simp [List.lookup_cons, this]
    rw [e2]
    apply ih _ hl.2 (hps.erase k)
    intro x hx
    have hne : x ≠ k := by rintro rfl; exact hl.1 hx
    exact (List.mem_erase_of_ne hne).mpr (hsub x (by simp at hx ⊢; right; exact hx))

end Tinymist.EditorDiag
