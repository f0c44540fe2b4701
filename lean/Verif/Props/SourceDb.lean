import Verif.Lemmas.SourceDb
/-!
# C28: one content per file in a compilation, and a complete dependency list
-/
namespace Tinymist.SourceDb
variable {Fid V : Type} [DecidableEq Fid]

/-- C28, first half. Whatever the storage would answer at each moment, every read of a file gets the answer
of the first read of that file (in the same form, text or bytes). -/
theorem reads_see_first_content (reads : List (Read Fid V)) (i : Nat) (r : Read Fid V)
    (h : reads[i]? = some r) : (run [] reads).2[i]? = firstAnswer reads r := by
  rw [(run_facts reads []).1 i r h]
  have : cellOf ([] : Slots Fid V) r.fid r.kind = none := rfl
  rw [this, Option.none_or]
  unfold firstAnswer
  cases hf : reads.find? (fun x => x.fid = r.fid ∧ x.kind = r.kind) with
  | some x => rfl
  | none =>
    rw [List.find?_eq_none] at hf
    have := hf r (List.mem_of_getElem? h)
    simp at this

/-- The first answer exists and comes from a read that is not later. -/
theorem first_answer_is_earlier (reads : List (Read Fid V)) (i : Nat) (r : Read Fid V)
    (h : reads[i]? = some r) :
    ∃ j ≤ i, ∃ x, reads[j]? = some x ∧ x.fid = r.fid ∧ x.kind = r.kind ∧ firstAnswer reads r = some x.now := by
  induction reads generalizing i with
  | nil => cases i <;> cases h
  | cons a rs ih =>
    by_cases hk : a.fid = r.fid ∧ a.kind = r.kind
    · exact ⟨0, Nat.zero_le _, a, rfl, hk.1, hk.2, by unfold firstAnswer; simp [hk.1, hk.2]⟩
    · cases i with
      | zero => simp at h; subst h; exact absurd ⟨rfl, rfl⟩ hk
      | succ i =>
        obtain ⟨j, hj, x, h1, h2, h3, h4⟩ := ih i (by simpa using h)
        refine ⟨j + 1, Nat.succ_le_succ hj, x, by simpa using h1, h2, h3, ?_⟩
        unfold firstAnswer at h4 ⊢
        rw [List.find?_cons_of_neg (by simpa using hk)]
        exact h4

/-- C28, second half. The dependencies reported are exactly the files read while compiling, whoever else
read files through the same database before, meanwhile or after; and none is reported twice. -/
theorem dependencies_exact (reads : List (Read Fid V)) :
    (∀ f, f ∈ dependencies (run [] reads).1 ↔ ∃ r ∈ reads, r.fid = f ∧ r.compiling = true) ∧
    (dependencies (run [] reads).1).Nodup := by
  obtain ⟨-, h2, h3⟩ := run_facts reads ([] : Slots Fid V)
  have hn := h3 List.nodup_nil
  refine ⟨fun f => ?_, ?_⟩
  · rw [mem_dependencies hn, h2]
    have : touchedOf ([] : Slots Fid V) f = false := rfl
    rw [this, Bool.false_or, List.any_eq_true]
    simp
  · unfold dependencies
    exact (List.filter_sublist.map _).nodup hn

/-- A file read first by a query, then twice by the compilation while the storage changes: the compilation
gets the first content both times, and the file is a dependency. -/
example :
    let reads : List (Read Nat Nat) :=
      [⟨false, .source, 7, 10⟩, ⟨true, .source, 7, 11⟩, ⟨false, .buffer, 8, 20⟩, ⟨true, .source, 7, 12⟩]
    (run [] reads).2 = [10, 10, 20, 10] ∧ dependencies (run [] reads).1 = [7] := by decide

end Tinymist.SourceDb
