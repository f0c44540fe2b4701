import Verif.Spec.Packages
/-! C80: starting a project from a template. -/
namespace Tinymist.Packages
variable {B : Type}

/-- Whatever was there is there. -/
def Extends (d d' : Disk B) : Prop := ∀ x n, d x = some n → d' x = some n

theorem Extends.refl (d : Disk B) : Extends d d := fun _ _ h => h
theorem Extends.trans {a b c : Disk B} (h : Extends a b) (h' : Extends b c) : Extends a c := fun x n hx => h' x n (h x n hx)

theorem extends_new {d : Disk B} {p : Path} (h : d p = none) (n : Node B) : Extends d (fun x => if x = p then some n else d x) := by
  intro x m hx
  simp only
  split
  · rename_i hp; rw [hp, h] at hx; cases hx
  · exact hx

theorem mkdirs_spec (rest : List Text) (d : Disk B) (base : Path) :
    Extends d (mkdirs d base rest).1 ∧
    (∀ x, (mkdirs d base rest).1 x ≠ d x → (mkdirs d base rest).1 x = some .dir ∧ base <+: x ∧ x <+: base ++ rest) ∧
    ((mkdirs d base rest).2 = true → ∀ t, t <+: rest → (mkdirs d base rest).1 (base ++ t) = some .dir) := by
  induction rest generalizing d base with
  | nil =>
    unfold mkdirs
    cases hd : d base with
    | none =>
      refine ⟨extends_new hd _, fun x hx => ?_, fun _ t ht => ?_⟩
      · simp only at hx ⊢
        by_cases hxb : x = base
        · subst hxb; simp
        · simp [hxb] at hx
      · rw [List.prefix_nil] at ht; subst ht; simp
    | some n =>
      cases n with
      | file b => exact ⟨Extends.refl d, fun x hx => absurd rfl hx, fun h => by cases h⟩
      | dir =>
        refine ⟨Extends.refl d, fun x hx => absurd rfl hx, fun _ t ht => ?_⟩
        rw [List.prefix_nil] at ht; subst ht; simpa using hd
  | cons c cs ih =>
    unfold mkdirs
    have hpre : ∀ x : Path, base ++ [c] <+: x → base <+: x := fun x h => (List.prefix_append base [c]).trans h
    cases hd : d base with
    | none =>
      obtain ⟨h1, h2, h3⟩ := ih (fun x => if x = base then some .dir else d x) (base ++ [c])
      refine ⟨(extends_new hd _).trans h1, fun x hx => ?_, fun hok t ht => ?_⟩
      · by_cases hxb : x = base
        · subst hxb
          exact ⟨h1 x .dir (by simp), List.prefix_refl _, List.prefix_append _ _⟩
        · have := h2 x (by simpa [hxb] using hx)
          exact ⟨this.1, hpre x this.2.1, by simpa using this.2.2⟩
      · cases t with
        | nil => exact h1 _ .dir (by simp)
        | cons a t =>
          obtain ⟨u, hu⟩ := ht
          simp only [List.cons_append, List.cons.injEq] at hu
          have := h3 hok t ⟨u, hu.2⟩
          rw [hu.1]; simpa using this
    | some n =>
      cases n with
      | file b => exact ⟨Extends.refl d, fun x hx => absurd rfl hx, fun h => by cases h⟩
      | dir =>
        obtain ⟨h1, h2, h3⟩ := ih d (base ++ [c])
        refine ⟨h1, fun x hx => ?_, fun hok t ht => ?_⟩
        · have := h2 x hx
          exact ⟨this.1, hpre x this.2.1, by simpa using this.2.2⟩
        · cases t with
          | nil => exact h1 _ .dir (by simpa using hd)
          | cons a t =>
            obtain ⟨u, hu⟩ := ht
            simp only [List.cons_append, List.cons.injEq] at hu
            have := h3 hok t ⟨u, hu.2⟩
            rw [hu.1]; simpa using this

/-- What copying does: it changes nothing that was there except files among those it copies, and it only adds on the way to them. -/
theorem copy_spec (files : List (Path × B)) (d : Disk B) (project : Path) :
    (∀ x n, d x = some n → (∀ f ∈ files, x ≠ project ++ f.1) → (copyFiles d project files).1 x = some n) ∧
    (∀ x, d x = none → (copyFiles d project files).1 x ≠ none → ∃ f ∈ files, x <+: project ++ f.1) ∧
    (∀ x, d x = some .dir → (copyFiles d project files).1 x = some .dir) ∧
    ((files.map (·.1)).Nodup → (copyFiles d project files).2 = true →
      ∀ f ∈ files, (copyFiles d project files).1 (project ++ f.1) = some (.file f.2)) := by
  induction files generalizing d with
  | nil => exact ⟨fun x n h _ => h, fun x h h' => absurd h h', fun x h => h, fun _ _ f hf => by cases hf⟩
  | cons f files ih =>
    obtain ⟨rel, b⟩ := f
    obtain ⟨m1, m2, -⟩ := mkdirs_spec (project ++ rel.dropLast) d []
    have hdrop : project ++ rel.dropLast <+: project ++ rel := (List.prefix_append_right_inj _).mpr (List.dropLast_prefix rel)
    unfold copyFiles
    cases hm : mkdirs d [] (project ++ rel.dropLast) with
    | mk d' ok =>
      rw [hm] at m1 m2
      simp only at m1 m2
      have hadd : ∀ x, d x = none → d' x ≠ none → x <+: project ++ rel := by
        intro x hx hx'
        have := m2 x (by rw [hx]; exact hx')
        exact (by simpa using this.2.2 : x <+: project ++ rel.dropLast).trans hdrop
      cases ok with
      | false =>
        refine ⟨fun x n h _ => m1 x n h, fun x h h' => ⟨_, List.mem_cons_self, hadd x h h'⟩, fun x h => m1 x _ h, fun _ h => by cases h⟩
      | true =>
        simp only
        unfold writeFile
        cases hw : d' (project ++ rel) with
        | some n =>
          cases n with
          | dir =>
            exact ⟨fun x n h _ => m1 x n h, fun x h h' => ⟨_, List.mem_cons_self, hadd x h h'⟩, fun x h => m1 x _ h, fun _ h => by cases h⟩
          | file b' =>
            simp only
            obtain ⟨c1, c2, c3, c4⟩ := ih (fun x => if x = project ++ rel then some (.file b) else d' x)
            refine ⟨fun x n h hne => ?_, fun x h h' => ?_, fun x h => ?_, fun hn hok f hf => ?_⟩
            · refine c1 x n ?_ fun f hf => hne f (List.mem_cons_of_mem _ hf)
              simp only [hne (rel, b) List.mem_cons_self, if_false]
              exact m1 x n h
            · by_cases hx : x = project ++ rel
              · exact ⟨_, List.mem_cons_self, by rw [hx]; exact List.prefix_refl _⟩
              · by_cases hd' : d' x = none
                · obtain ⟨f, hf, hp⟩ := c2 x (by simp only [hx, if_false]; exact hd') h'
                  exact ⟨f, List.mem_cons_of_mem _ hf, hp⟩
                · exact ⟨_, List.mem_cons_self, hadd x h hd'⟩
            · refine c3 x ?_
              split
              · rename_i hx; rw [hx] at h; rw [m1 _ _ h] at hw; cases hw
              · exact m1 x _ h
            · rw [List.map_cons, List.nodup_cons] at hn
              rcases List.mem_cons.mp hf with rfl | hf
              · refine c1 _ _ (by simp) fun g hg he => hn.1 ?_
                rw [List.append_cancel_left he]
                exact List.mem_map_of_mem hg
              · exact c4 hn.2 hok f hf
        | none =>
          simp only
          obtain ⟨c1, c2, c3, c4⟩ := ih (fun x => if x = project ++ rel then some (.file b) else d' x)
          refine ⟨fun x n h hne => ?_, fun x h h' => ?_, fun x h => ?_, fun hn hok f hf => ?_⟩
          · refine c1 x n ?_ fun f hf => hne f (List.mem_cons_of_mem _ hf)
            simp only [hne (rel, b) List.mem_cons_self, if_false]
            exact m1 x n h
          · by_cases hx : x = project ++ rel
            · exact ⟨_, List.mem_cons_self, by rw [hx]; exact List.prefix_refl _⟩
            · by_cases hd' : d' x = none
              · obtain ⟨f, hf, hp⟩ := c2 x (by simp only [hx, if_false]; exact hd') h'
                exact ⟨f, List.mem_cons_of_mem _ hf, hp⟩
              · exact ⟨_, List.mem_cons_self, hadd x h hd'⟩
          · refine c3 x ?_
            split
            · rename_i hx; rw [hx] at h; rw [m1 _ _ h] at hw; cases hw
            · exact m1 x _ h
          · rw [List.map_cons, List.nodup_cons] at hn
            rcases List.mem_cons.mp hf with rfl | hf
            · refine c1 _ _ (by simp) fun g hg he => hn.1 ?_
              rw [List.append_cancel_left he]
              exact List.mem_map_of_mem hg
            · exact c4 hn.2 hok f hf

/-- C80: starting a project from a template never changes or removes anything that was on the disk, whether it succeeds or not; it
only adds directories on the way to the project and things below the project that lead to files of the template. -/
theorem nothing_lost (d : Disk B) (project : Path) (empty : Bool) (files : List (Path × B)) (hsees : Sees d project empty)
    (hrel : ∀ f ∈ files, f.1 ≠ []) :
    (∀ x n, d x = some n → (scaffold d project empty files).1 x = some n) ∧
    ∀ x, d x = none → (scaffold d project empty files).1 x ≠ none → ∃ f ∈ files, x <+: project ++ f.1 := by
  have hcopy : (d project = some .dir → empty = true) →
      (∀ x n, d x = some n → (copyFiles d project files).1 x = some n) ∧
      ∀ x, d x = none → (copyFiles d project files).1 x ≠ none → ∃ f ∈ files, x <+: project ++ f.1 := by
    intro he
    obtain ⟨c1, c2, -, -⟩ := copy_spec files d project
    refine ⟨fun x n h => c1 x n h fun f hf hx => ?_, c2⟩
    obtain ⟨h1, h2⟩ := hsees f.1 (hrel f hf) (by rw [← hx, h]; simp)
    rw [he h1] at h2; cases h2
  unfold scaffold
  cases hd : d project with
  | none => exact hcopy fun h => by rw [hd] at h; cases h
  | some n =>
    cases n with
    | file b => exact ⟨fun x n h => h, fun x h h' => absurd h h'⟩
    | dir =>
      simp only
      split
      · rename_i he; exact hcopy fun _ => he
      · exact ⟨fun x n h => h, fun x h h' => absurd h h'⟩

/-- C80: if it succeeds, the project has all files of the template; it refuses a project directory that is a file or is not
empty, and leaves the disk alone. -/
theorem template_copied (d : Disk B) (project : Path) (empty : Bool) (files : List (Path × B)) (hn : (files.map (·.1)).Nodup) :
    ((scaffold d project empty files).2 = true → ∀ f ∈ files, (scaffold d project empty files).1 (project ++ f.1) = some (.file f.2)) ∧
    ((∃ b, d project = some (.file b)) ∨ d project = some .dir ∧ empty = false → scaffold d project empty files = (d, false)) := by
  constructor
  · unfold scaffold
    intro hok f hf
    cases hd : d project with
    | none => rw [hd] at hok; exact (copy_spec files d project).2.2.2 hn hok f hf
    | some n =>
      rw [hd] at hok
      cases n with
      | file b => cases hok
      | dir =>
        cases empty with
        | true => exact (copy_spec files d project).2.2.2 hn hok f hf
        | false => cases hok
  · rintro (⟨b, h⟩ | ⟨h, h'⟩)
    · simp only [scaffold, h]
    · simp only [scaffold, h, h', Bool.false_eq_true, if_false]

/-! The hypotheses can be met -/

def home : Disk Nat := fun x =>
  if x = [] ∨ x = ["w".toList] ∨ x = ["w".toList, "old".toList] then some .dir
  else if x = ["w".toList, "old".toList, "main.typ".toList] then some (.file 9) else none

def tmpl : List (Path × Nat) := [(["main.typ".toList], 1), (["src".toList, "a.typ".toList], 2)]

example : (scaffold home ["w".toList, "new".toList] true tmpl).2 = true ∧ (tmpl.map (·.1)).Nodup ∧ (∀ f ∈ tmpl, f.1 ≠ []) ∧
    (scaffold home ["w".toList, "new".toList] true tmpl).1 ["w".toList, "new".toList, "src".toList, "a.typ".toList] = some (.file 2) ∧
    (scaffold home ["w".toList, "old".toList] false tmpl).2 = false := by decide +kernel

example : Sees home ["w".toList, "new".toList] true := by
  intro rel hr h
  exfalso
  apply h
  have h1 : ["w".toList, "new".toList] ++ rel ≠ [] := by simp
  have h2 : ["w".toList, "new".toList] ++ rel ≠ ["w".toList] := by simp
  have h3 : ["w".toList, "new".toList] ++ rel ≠ ["w".toList, "old".toList] := by
    intro hx; simp only [List.cons_append, List.cons.injEq] at hx; exact absurd hx.2.1 (by decide)
  have h4 : ["w".toList, "new".toList] ++ rel ≠ ["w".toList, "old".toList, "main.typ".toList] := by
    intro hx; simp only [List.cons_append, List.cons.injEq] at hx; exact absurd hx.2.1 (by decide)
  unfold home
  rw [if_neg (by rintro (h | h | h) <;> contradiction), if_neg h4]

end Tinymist.Packages
