import Verif.Model.AtomicWrite
/-!
# C14: replacing a file atomically
-/
namespace Tinymist.AtomicWrite

/-- What the target must hold once `data` has replaced `old`: all of `data`, and the permission bits of
the file it replaces. -/
def replaced (old : Option File) (data : Bytes) : File :=
  ⟨data, match old with | some f => f.mode &&& permMask | none => tmpMode⟩

private theorem set_same (fs : Fs) (p : Path) (f : Option File) : fs.set p f p = f := by simp [Fs.set]
private theorem set_other (fs : Fs) {p q : Path} (f : Option File) (h : q ≠ p) : fs.set p f q = fs q := by
  simp [Fs.set, h]

/-- Ops that name only `tmp` leave every other path alone. -/
private theorem tmp_only {tmp : Path} {ops : List Op} {fs fs' : Fs}
    (hops : ∀ op ∈ ops, op = .create tmp ∨ (∃ b, op = .write tmp b) ∨ ∃ m, op = .chmod tmp m)
    (h : Visible ops fs fs') (q : Path) (hq : q ≠ tmp) : fs' q = fs q := by
  induction h with
  | stop => rfl
  | torn p b ops fs c _ =>
    rcases hops _ (List.mem_cons_self ..) with h | ⟨_, h⟩ | ⟨_, h⟩ <;> cases h
    exact set_other _ _ hq
  | step op ops fs fs' h ih =>
    rw [ih fun o ho => hops o (List.mem_cons_of_mem _ ho)]
    rcases hops _ (List.mem_cons_self ..) with h | ⟨_, h⟩ | ⟨_, h⟩ <;> subst h <;> exact set_other _ _ hq

/-- Splitting what is visible during two sequences run one after the other. -/
private theorem visible_append {a b : List Op} {fs fs' : Fs} (h : Visible (a ++ b) fs fs') :
    Visible a fs fs' ∨ Visible b (runOps a fs) fs' := by
  induction a generalizing fs with
  | nil => exact Or.inr h
  | cons op a ih =>
    cases h with
    | stop => exact Or.inl (.stop _ _)
    | torn p b' _ _ c hc => exact Or.inl (.torn _ _ _ _ _ hc)
    | step _ _ _ _ h =>
      rcases ih h with h | h
      · exact Or.inl (.step _ _ _ _ h)
      · exact Or.inr h

private theorem run_writes (tmp : Path) (chunks : List Bytes) (fs : Fs) (f : File) (h : fs tmp = some f) :
    runOps (chunks.map (.write tmp)) fs tmp = some { f with data := f.data ++ chunks.flatten } := by
  induction chunks generalizing fs f with
  | nil => simp [runOps, h]
  | cons b bs ih =>
    rw [List.map_cons, runOps, List.foldl_cons]
    have : Op.apply (.write tmp b) fs tmp = some { f with data := f.data ++ b } := by
      simp [Op.apply, set_same, h]
    have := ih _ _ this
    rw [runOps] at this
    rw [this]
    simp

/-- The calls before the rename. -/
private def prep (fs : Fs) (path tmp : Path) (chunks : List Bytes) : List Op :=
  [.create tmp] ++ chunks.map (.write tmp) ++
    (match (fs path).map fun f => f.mode &&& permMask with | some m => [.chmod tmp m] | none => [])

private theorem prep_only (fs : Fs) (path tmp : Path) (chunks : List Bytes) :
    ∀ op ∈ prep fs path tmp chunks,
      op = .create tmp ∨ (∃ b, op = .write tmp b) ∨ ∃ m, op = .chmod tmp m := by
  intro op h
  rcases List.mem_append.mp h with h | h
  · rcases List.mem_append.mp h with h | h
    · exact Or.inl (List.mem_singleton.mp h)
    · obtain ⟨b, -, e⟩ := List.mem_map.mp h
      exact Or.inr (Or.inl ⟨b, e.symm⟩)
  · split at h
    · exact Or.inr (Or.inr ⟨_, List.mem_singleton.mp h⟩)
    · cases h

private theorem visible_run (ops : List Op) (fs : Fs) : Visible ops fs (runOps ops fs) := by
  induction ops generalizing fs with
  | nil => exact .stop _ _
  | cons op ops ih => exact .step _ _ _ _ (ih _)

private theorem prep_tmp (fs : Fs) (path tmp : Path) (chunks : List Bytes) :
    runOps (prep fs path tmp chunks) fs tmp = some (replaced (fs path) chunks.flatten) := by
  unfold prep runOps
  rw [List.foldl_append, List.foldl_append, List.foldl_cons, List.foldl_nil]
  have h1 := run_writes tmp chunks (Op.apply (.create tmp) fs) ⟨[], tmpMode⟩ (by simp [Op.apply, set_same])
  unfold runOps at h1
  cases hp : fs path with
  | none => simp only [Option.map_none, List.foldl_nil]; rw [h1]; simp [replaced]
  | some f =>
    simp only [Option.map_some, List.foldl_cons, List.foldl_nil]
    simp [Op.apply, set_same] at h1 ⊢
    rw [h1]
    simp [replaced]

private theorem writeAtomic_eq (fs : Fs) (path tmp : Path) (chunks : List Bytes) :
    writeAtomic fs path tmp chunks = prep fs path tmp chunks ++ [.rename tmp path] := rfl

/-- **C14**. At every instant, in every crash, and after any failing call, the target is either what it
was before or the complete new content with the old permission bits; every other file but the temporary
one is what it was. -/
theorem old_or_new (fs fs' : Fs) (path tmp : Path) (chunks : List Bytes) (hne : tmp ≠ path)
    (h : Visible (writeAtomic fs path tmp chunks) fs fs') :
    (fs' path = fs path ∨ fs' path = some (replaced (fs path) chunks.flatten)) ∧
    ∀ q, q ≠ path → q ≠ tmp → fs' q = fs q := by
  rw [writeAtomic_eq] at h
  rcases visible_append h with h | h
  · exact ⟨Or.inl (tmp_only (prep_only _ _ _ _) h path (Ne.symm hne)),
      fun q _ hq => tmp_only (prep_only _ _ _ _) h q hq⟩
  · have hprep : ∀ q, q ≠ tmp → runOps (prep fs path tmp chunks) fs q = fs q :=
      fun q hq => tmp_only (prep_only _ _ _ _) (visible_run _ _) q hq
    cases h with
    | stop => exact ⟨Or.inl (hprep path (Ne.symm hne)), fun q _ hq => hprep q hq⟩
    | step _ _ _ _ h =>
      cases h
      constructor
      · right
        simp only [Op.apply]
        rw [set_other _ _ (Ne.symm hne), set_same, prep_tmp]
      · intro q h1 h2
        simp only [Op.apply]
        rw [set_other _ _ h2, set_other _ _ h1, hprep q h2]

/-- **C14**. A run that finishes has replaced the target and leaves no temporary file. -/
theorem finished (fs : Fs) (path tmp : Path) (chunks : List Bytes) (hne : tmp ≠ path) :
    let fs' := runOps (writeAtomic fs path tmp chunks) fs
    fs' path = some (replaced (fs path) chunks.flatten) ∧ fs' tmp = none ∧
    ∀ q, q ≠ path → q ≠ tmp → fs' q = fs q := by
  intro fs'
  have e : fs' = Op.apply (.rename tmp path) (runOps (prep fs path tmp chunks) fs) := by
    show runOps (writeAtomic fs path tmp chunks) fs = _
    rw [writeAtomic_eq, runOps, List.foldl_append]; rfl
  rw [e]
  simp only [Op.apply]
  refine ⟨?_, ?_, ?_⟩
  · rw [set_other _ _ (Ne.symm hne), set_same, prep_tmp]
  · rw [set_same]
  · intro q h1 h2
    rw [set_other _ _ h2, set_other _ _ h1]
    exact tmp_only (prep_only _ _ _ _) (visible_run _ _) q h2

/-- The hypotheses are met, and both outcomes occur: replacing a file by a longer one in two chunks. -/
example :
    let fs : Fs := fun q => if q = "out.pdf" then some ⟨[1, 2], 0o644⟩ else none
    runOps (writeAtomic fs "out.pdf" "out.pdf.tmp" [[3], [4, 5]]) fs "out.pdf" = some ⟨[3, 4, 5], 0o644⟩ ∧
    (∃ fs', Visible (writeAtomic fs "out.pdf" "out.pdf.tmp" [[3], [4, 5]]) fs fs' ∧
      fs' "out.pdf" = some ⟨[1, 2], 0o644⟩ ∧ fs' "out.pdf.tmp" = some ⟨[3], tmpMode⟩) := by
  refine ⟨by decide, _, .step _ _ _ _ (.step _ _ _ _ (.stop _ _)), by decide, by decide⟩

end Tinymist.AtomicWrite
