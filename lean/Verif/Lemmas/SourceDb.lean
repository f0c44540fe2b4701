import Verif.Spec.SourceDb
namespace Tinymist.SourceDb
variable {Fid V : Type} [DecidableEq Fid]

theorem lookup_fid {db : Slots Fid V} {f : Fid} {s : Slot Fid V} (h : lookup db f = some s) : s.fid = f := by
  induction db with
  | nil => cases h
  | cons x l ih =>
    rw [lookup] at h
    split at h
    · injection h with h; subst h; assumption
    · exact ih h

theorem lookup_update (db : Slots Fid V) (s : Slot Fid V) (f : Fid) :
    lookup (update db s) f = if s.fid = f then some s else lookup db f := by
  induction db with
  | nil => rfl
  | cons x l ih =>
    rw [update]
    split
    · rename_i h
      rw [lookup, lookup]
      by_cases hs : s.fid = f
      · simp [hs]
      · rw [if_neg hs, if_neg hs, if_neg (by rw [h]; exact hs)]
    · rename_i h
      rw [lookup, lookup, ih]
      by_cases hs : s.fid = f
      · rw [if_pos hs, if_pos hs, if_neg (by rw [← hs]; exact h)]
      · rw [if_neg hs, if_neg hs]

theorem mem_lookup {db : Slots Fid V} (h : (db.map (·.fid)).Nodup) (s : Slot Fid V) :
    s ∈ db ↔ lookup db s.fid = some s := by
  induction db with
  | nil => constructor <;> intro h <;> cases h
  | cons x l ih =>
    rw [List.map_cons, List.nodup_cons] at h
    rw [lookup]
    constructor
    · intro hm
      rcases List.mem_cons.mp hm with e | hm
      · subst e; simp
      · rw [if_neg]
        · exact (ih h.2).mp hm
        · intro e; exact h.1 (e ▸ List.mem_map.mpr ⟨s, hm, rfl⟩)
    · intro hl
      split at hl
      · injection hl with hl; subst hl; exact List.mem_cons_self ..
      · exact List.mem_cons_of_mem _ ((ih h.2).mpr hl)

theorem map_update (db : Slots Fid V) (s : Slot Fid V) :
    (update db s).map (·.fid) = if s.fid ∈ db.map (·.fid) then db.map (·.fid) else db.map (·.fid) ++ [s.fid] := by
  induction db with
  | nil => rfl
  | cons x l ih =>
    rw [update]
    split
    · rename_i h; simp [h]
    · rename_i h
      rw [List.map_cons, ih]
      have hne : ¬ s.fid = x.fid := fun e => h e.symm
      by_cases hm : s.fid ∈ l.map (·.fid)
      · rw [if_pos hm, if_pos (by rw [List.map_cons]; exact List.mem_cons_of_mem _ hm), List.map_cons]
      · rw [if_neg hm, if_neg (by rw [List.map_cons]; intro h'; rcases List.mem_cons.mp h' with h' | h'; exact hne h'; exact hm h'), List.map_cons]
        rfl

theorem nodup_update {db : Slots Fid V} (h : (db.map (·.fid)).Nodup) (s : Slot Fid V) :
    ((update db s).map (·.fid)).Nodup := by
  rw [map_update]
  split
  · exact h
  · rename_i hn
    rw [List.nodup_append]
    exact ⟨h, by simp, fun a ha b hb e => hn (by rw [List.mem_singleton.mp hb] at e; exact e ▸ ha)⟩

/-- The cell of a file, `none` when it has no slot. -/
def cellOf (db : Slots Fid V) (f : Fid) (k : Kind) : Option V := (lookup db f).bind (·.cell k)

def touchedOf (db : Slots Fid V) (f : Fid) : Bool := ((lookup db f).map (·.touched)).getD false

theorem slot_fid (db : Slots Fid V) (c : Bool) (f : Fid) : (slot db c f).fid = f := by
  unfold slot
  cases h : lookup db f with
  | none => simp only [Option.getD_none]; split <;> rfl
  | some s =>
    have := lookup_fid h
    simp only [Option.getD_some]; split <;> exact this

theorem slot_cell (db : Slots Fid V) (c : Bool) (f : Fid) (k : Kind) : (slot db c f).cell k = cellOf db f k := by
  unfold slot cellOf
  cases h : lookup db f with
  | none => simp only [Option.getD_none]; split <;> cases k <;> rfl
  | some s => simp only [Option.getD_some]; split <;> cases k <;> rfl

theorem slot_touched (db : Slots Fid V) (c : Bool) (f : Fid) : (slot db c f).touched = (touchedOf db f || c) := by
  unfold slot touchedOf
  cases h : lookup db f with
  | none => cases c <;> rfl
  | some s => cases c <;> cases ht : s.touched <;> simp [ht]

theorem setCell_fid (s : Slot Fid V) (k : Kind) (v : V) : (s.setCell k v).fid = s.fid := by cases k <;> rfl
theorem setCell_touched (s : Slot Fid V) (k : Kind) (v : V) : (s.setCell k v).touched = s.touched := by
  cases k <;> rfl
theorem setCell_cell (s : Slot Fid V) (k k' : Kind) (v : V) :
    (s.setCell k v).cell k' = if k = k' then some v else s.cell k' := by cases k <;> cases k' <;> rfl

theorem read_answer (db : Slots Fid V) (c : Bool) (k : Kind) (f : Fid) (now : V) :
    (read db c k f now).2 = (cellOf db f k).getD now := by
  unfold read
  simp only [slot_cell]
  cases cellOf db f k <;> rfl

theorem read_cell (db : Slots Fid V) (c : Bool) (k : Kind) (f : Fid) (now : V) (g : Fid) (k' : Kind) :
    cellOf (read db c k f now).1 g k' =
      if f = g ∧ k = k' then some ((cellOf db f k).getD now) else cellOf db g k' := by
  unfold read
  simp only [slot_cell]
  cases h : cellOf db f k with
  | some v =>
    simp only [Option.getD_some]
    unfold cellOf at h ⊢
    rw [lookup_update, slot_fid]
    by_cases hg : f = g
    · subst hg
      simp only [if_true, true_and, Option.bind_some, slot_cell]
      by_cases hk : k = k'
      · subst hk; rw [if_pos rfl]; exact h
      · rw [if_neg hk]; rfl
    · simp [hg]
  | none =>
    simp only [Option.getD_none]
    unfold cellOf at h ⊢
    rw [lookup_update, setCell_fid, slot_fid]
    by_cases hg : f = g
    · subst hg
      simp only [if_true, true_and, Option.bind_some, setCell_cell, slot_cell]
      rfl
    · simp [hg]

theorem read_touched (db : Slots Fid V) (c : Bool) (k : Kind) (f : Fid) (now : V) (g : Fid) :
    touchedOf (read db c k f now).1 g = (touchedOf db g || (decide (f = g) && c)) := by
  unfold read
  have key : ∀ s : Slot Fid V, s.fid = f → s.touched = (touchedOf db f || c) →
      touchedOf (update db s) g = (touchedOf db g || (decide (f = g) && c)) := by
    intro s h1 h2
    have : touchedOf (update db s) g = if f = g then s.touched else touchedOf db g := by
      unfold touchedOf
      rw [lookup_update, h1]
      split <;> rfl
    rw [this]
    by_cases hg : f = g
    · subst hg; simp [h2]
    · simp [hg]
  simp only
  cases (slot db c f).cell k with
  | some v => exact key _ (slot_fid ..) (slot_touched ..)
  | none => exact key ((slot db c f).setCell k now) (by rw [setCell_fid, slot_fid]) (by rw [setCell_touched, slot_touched])

theorem read_nodup {db : Slots Fid V} (h : (db.map (·.fid)).Nodup) (c : Bool) (k : Kind) (f : Fid) (now : V) :
    ((read db c k f now).1.map (·.fid)).Nodup := by
  unfold read
  simp only
  split
  · exact nodup_update h _
  · exact nodup_update h _

theorem mem_dependencies {db : Slots Fid V} (h : (db.map (·.fid)).Nodup) (f : Fid) :
    f ∈ dependencies db ↔ touchedOf db f = true := by
  unfold dependencies touchedOf
  simp only [List.mem_map, List.mem_filter]
  constructor
  · rintro ⟨s, ⟨h1, h2⟩, rfl⟩
    rw [(mem_lookup h s).mp h1]; exact h2
  · intro ht
    cases hl : lookup db f with
    | none => rw [hl] at ht; cases ht
    | some s =>
      rw [hl] at ht
      have := lookup_fid hl
      subst this
      exact ⟨s, ⟨(mem_lookup h s).mpr hl, ht⟩, rfl⟩

theorem run_facts (rs : List (Read Fid V)) (db : Slots Fid V) :
    (∀ (i : Nat) r, rs[i]? = some r → (run db rs).2[i]? = some (((cellOf db r.fid r.kind).or (firstAnswer rs r)).getD r.now)) ∧
    (∀ g, touchedOf (run db rs).1 g = (touchedOf db g || rs.any fun r => decide (r.fid = g) && r.compiling)) ∧
    ((db.map (·.fid)).Nodup → ((run db rs).1.map (·.fid)).Nodup) := by
  induction rs generalizing db with
  | nil => exact ⟨fun i r h => (by cases i <;> cases h), fun g => (by simp [run]), fun h => h⟩
  | cons a rs ih =>
    obtain ⟨i1, i2, i3⟩ := ih (read db a.compiling a.kind a.fid a.now).1
    refine ⟨?_, ?_, ?_⟩
    · intro i r hr
      rw [run]
      simp only
      cases i with
      | zero =>
        simp only [List.getElem?_cons_zero] at hr ⊢
        injection hr with hr
        subst hr
        rw [read_answer]
        have : firstAnswer (a :: rs) a = some a.now := by
          unfold firstAnswer; simp
        rw [this]
        cases cellOf db a.fid a.kind <;> rfl
      | succ i =>
        simp only [List.getElem?_cons_succ] at hr ⊢
        rw [i1 i r hr, read_cell]
        congr 1
        by_cases hk : a.fid = r.fid ∧ a.kind = r.kind
        · obtain ⟨h1, h2⟩ := hk
          have : firstAnswer (a :: rs) r = some a.now := by
            unfold firstAnswer; simp [h1, h2]
          rw [this, if_pos ⟨h1, h2⟩, h1, h2]
          cases cellOf db r.fid r.kind <;> rfl
        · rw [if_neg hk]
          have : firstAnswer (a :: rs) r = firstAnswer rs r := by
            unfold firstAnswer
            rw [List.find?_cons_of_neg]
            simpa using hk
          rw [this]
    · intro g
      rw [run]
      simp only
      rw [i2, read_touched, List.any_cons, Bool.or_assoc]
    · intro h
      rw [run]
      exact i3 (read_nodup h ..)

end Tinymist.SourceDb
