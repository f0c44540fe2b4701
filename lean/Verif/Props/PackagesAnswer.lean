import Verif.Props.Packages
import Verif.Props.PackagesInit

/-!
# C78, C80: what a call answers, and when a template is copied
-/

namespace Tinymist.Packages
variable {B : Type}

/-- `n` steps of call `i`. -/
abbrev moves (i : Nat) (resp : Resp B) (n : Nat) : List (Op B) := List.replicate n (.move i resp false)

theorem at_get {s : St B} {i : Nat} {spec : Spec} (p : Phase B) (h : i < s.calls.length) :
    (s.at i spec p).calls[i]? = some (spec, p) := by
  simp [St.at, h]

theorem run_unpack (resp : Resp B) (spec : Spec) (i : Nat) (ok : Bool) (files : List (Text × B)) : ∀ (s : St B) (w : List (Text × B))
    (d : Dir B), i < s.calls.length → s.calls[i]? = some (spec, .unpack files ok) → s.cache (subdir spec) = some d → Holds d w →
    ∃ s' d', run s (moves i resp files.length) = s' ∧ i < s'.calls.length ∧ s'.calls[i]? = some (spec, .unpack [] ok) ∧
      s'.cache (subdir spec) = some d' ∧ Holds d' (w ++ files) ∧ s'.returned = s.returned := by
  induction files with
  | nil => intro s w d hl hi hc hw; exact ⟨s, d, rfl, hl, hi, hc, by simpa using hw, rfl⟩
  | cons f files ih =>
    intro s w d hl hi hc hw
    have e : step s (.move i resp false) = (s.setCache (subdir spec) (some (d.put f))).at i spec (.unpack files ok) := by
      simp [step, move, hi, hc]
    obtain ⟨s', d', h1, h2, h3, h4, h5, h6⟩ := ih ((s.setCache (subdir spec) (some (d.put f))).at i spec (.unpack files ok)) (w ++ [f])
      (d.put f) (by simpa [St.at, St.setCache] using hl) (at_get _ (by simpa [St.setCache] using hl))
      (by simp [St.at, St.setCache]) (holds_put hw f)
    refine ⟨s', d', ?_, h2, h3, h4, by simpa using h5, by rw [h6]; rfl⟩
    rw [← h1, List.length_cons, moves, List.replicate_succ, run, List.foldl_cons, e]
    rfl

theorem run_append (s : St B) (a b : List (Op B)) : run s (a ++ b) = run (run s a) b := by simp [run]

/-- **C78.** A call that is let alone answers, and answers right: with what is in the data directory, else with what is in the
cache, else, for a package of the registry, with the files the registry gives; a package the registry does not know is
not found, a failure of the network is told as such, and a broken archive is told as such. -/
theorem call_answers (s : St B) (spec : Spec) (resp : Resp B) : ∃ n r seen,
    (run s (.call spec :: moves s.calls.length resp n)).returned = s.returned ++ [⟨spec, r, seen⟩] ∧ Answer s spec resp r seen := by
  have hns : previewNs = "preview".toList := by decide
  -- the call is registered
  have h0 : ∀ n, run s (.call spec :: moves s.calls.length resp n) =
      run (step s (.call spec)) (moves s.calls.length resp n) := fun _ => rfl
  generalize hs1 : step s (.call spec) = s1 at h0
  have hi1 : s1.calls[s.calls.length]? = some (spec, .data) := by rw [← hs1]; simp [step]
  have hl1 : s.calls.length < s1.calls.length := by rw [← hs1]; simp [step]
  have hd1 : s1.data = s.data := by rw [← hs1]; rfl
  have hc1 : s1.cache = s.cache := by rw [← hs1]; rfl
  have hr1 : s1.returned = s.returned := by rw [← hs1]; rfl
  generalize s.calls.length = i at *
  cases hd : s.data (subdir spec) with
  | some d =>
    refine ⟨1, .data, some d, ?_, .data d hd⟩
    rw [h0]
    simp [run, step, move, hi1, hd1, hd, St.give, hr1]
  | none =>
    have e1 : step s1 (.move i resp false) = s1.at i spec .cache := by simp [step, move, hi1, hd1, hd]
    have hi2 := at_get (s := s1) (spec := spec) .cache hl1
    cases hc : s.cache (subdir spec) with
    | some d =>
      refine ⟨2, .cache, some d, ?_, .cache d hd hc⟩
      rw [h0]
      have e2 : step (s1.at i spec .cache) (.move i resp false) = (s1.at i spec .cache).give i spec .cache (some d) := by
        simp only [step, move, hi2]
        rw [show (s1.at i spec .cache).cache = s.cache from hc1, hc]
      simp only [moves, List.replicate_succ, List.replicate_zero, run, List.foldl_cons, List.foldl_nil, e1, e2]
      simp [St.give, St.at, hr1]
    | none =>
      by_cases hp : spec.ns = "preview".toList
      · have e2 : step (s1.at i spec .cache) (.move i resp false) = (s1.at i spec .cache).at i spec .request := by
          simp only [step, move, hi2]
          rw [show (s1.at i spec .cache).cache = s.cache from hc1, hc]
          simp [hns, hp]
        have hl2 : i < (s1.at i spec .cache).calls.length := by simpa [St.at] using hl1
        have hi3 := at_get (s := s1.at i spec .cache) (spec := spec) .request hl2
        generalize hs3 : (s1.at i spec .cache).at i spec .request = s3 at e2 hi3
        have hl3 : i < s3.calls.length := by rw [← hs3]; simpa [St.at] using hl1
        have hc3 : s3.cache (subdir spec) = none := by rw [← hs3]; simp only [St.at]; rw [hc1, hc]
        have hr3 : s3.returned = s.returned := by rw [← hs3]; simp only [St.at]; rw [hr1]
        have h3 : ∀ n, run s (.call spec :: moves i resp (n + 2)) = run s3 (moves i resp n) := by
          intro n
          rw [h0]
          simp only [moves, List.replicate_succ, run, List.foldl_cons, e1, e2]
        cases resp with
        | notFound =>
          refine ⟨3, .notFound, none, ?_, .notFound hd hc hp rfl⟩
          rw [h3 1]
          simp [run, step, move, hi3, St.give, hr3]
        | failed =>
          refine ⟨3, .network, none, ?_, .network hd hc hp rfl⟩
          rw [h3 1]
          simp [run, step, move, hi3, St.give, hr3]
        | archive files ok =>
          have e3 : step s3 (.move i (.archive files ok) false) =
              { s3 with requests := s3.requests ++ [spec] }.at i spec (.create files ok) := by
            simp [step, move, hi3]
          have hi4 := at_get (s := { s3 with requests := s3.requests ++ [spec] }) (spec := spec) (.create files ok) hl3
          generalize hs4 : ({ s3 with requests := s3.requests ++ [spec] } : St B).at i spec (.create files ok) = s4 at e3 hi4
          have hl4 : i < s4.calls.length := by rw [← hs4]; simpa [St.at] using hl3
          have hc4 : s4.cache (subdir spec) = none := by rw [← hs4]; exact hc3
          have hr4 : s4.returned = s.returned := by rw [← hs4]; exact hr3
          have e4 : step s4 (.move i (.archive files ok) false) =
              (s4.setCache (subdir spec) (some fun _ => none)).at i spec (.unpack files ok) := by
            simp [step, move, hi4, hc4]
          have hi5 := at_get (s := s4.setCache (subdir spec) (some fun _ => none)) (spec := spec) (.unpack files ok) hl4
          obtain ⟨s6, d, h61, h62, h63, h64, h65, h66⟩ := run_unpack (.archive files ok) spec i ok files
            ((s4.setCache (subdir spec) (some fun _ => none)).at i spec (.unpack files ok)) [] (fun _ => none)
            (by simpa [St.at, St.setCache] using hl4) hi5 (by simp [St.at, St.setCache]) holds_empty
          have hr6 : s6.returned = s.returned := by rw [h66]; exact hr4
          have h6 : ∀ n, run s (.call spec :: moves i (.archive files ok) ((files.length + n + 2) + 2)) =
              run s6 (moves i (.archive files ok) n) := by
            intro n
            rw [h3, moves, List.replicate_succ, List.replicate_succ]
            have : (List.replicate (files.length + n) (Op.move i (Resp.archive files ok) false)) =
                moves i (.archive files ok) files.length ++ moves i (.archive files ok) n := by
              simp [moves, List.replicate_append_replicate]
            rw [this]
            have e5 : ∀ l, run s3 (Op.move i (Resp.archive files ok) false :: Op.move i (Resp.archive files ok) false :: l) =
                run ((s4.setCache (subdir spec) (some fun _ => none)).at i spec (.unpack files ok)) l := by
              intro l
              simp only [run, List.foldl_cons, e3, e4]
            rw [e5, run_append, h61]
          cases ok with
          | true =>
            refine ⟨(files.length + 2 + 2) + 2, .cache, some d, ?_, .archive files d hd hc hp rfl (by simpa using h65)⟩
            · rw [h6 2]
              have e7 : step s6 (.move i (.archive files true) false) = s6.at i spec .final := by simp [step, move, h63]
              have hi7 := at_get (s := s6) (spec := spec) .final h62
              have e8 : step (s6.at i spec .final) (.move i (.archive files true) false) =
                  (s6.at i spec .final).give i spec .cache (some d) := by
                simp only [step, move, hi7]
                rw [show (s6.at i spec .final).cache = s6.cache from rfl, h64]
              simp only [moves, List.replicate_succ, List.replicate_zero, run, List.foldl_cons, List.foldl_nil, e7, e8]
              simp [St.give, St.at, hr6]
          | false =>
            refine ⟨(files.length + 2 + 2) + 2, .malformed, none, ?_, .broken files hd hc hp rfl⟩
            · rw [h6 2]
              have e7 : step s6 (.move i (.archive files false) false) = s6.at i spec .remove := by simp [step, move, h63]
              have hi7 := at_get (s := s6) (spec := spec) .remove h62
              have e8 : step (s6.at i spec .remove) (.move i (.archive files false) false) =
                  ((s6.at i spec .remove).setCache (subdir spec) none).give i spec .malformed none := by
                simp [step, move, hi7]
              simp only [moves, List.replicate_succ, List.replicate_zero, run, List.foldl_cons, List.foldl_nil, e7, e8]
              simp [St.give, St.at, St.setCache, hr6]
      · refine ⟨2, .notFound, none, ?_, .unknown hd hc hp⟩
        rw [h0]
        have e2 : step (s1.at i spec .cache) (.move i resp false) = (s1.at i spec .cache).give i spec .notFound none := by
          simp only [step, move, hi2]
          rw [show (s1.at i spec .cache).cache = s.cache from hc1, hc]
          simp only
          rw [if_neg (by rw [hns]; exact hp)]
        simp only [moves, List.replicate_succ, List.replicate_zero, run, List.foldl_cons, List.foldl_nil, e1, e2]
        simp [St.give, St.at, hr1]

/-- **C78.** A package that someone puts into the data directory is the one that is found from then on. -/
theorem installed_found (s : St B) (spec : Spec) (d : Dir B) (resp : Resp B) :
    (run s [.install (subdir spec) (some d), .call spec, .move s.calls.length resp false]).returned =
      s.returned ++ [⟨spec, .data, some d⟩] := by
  simp [run, step, move, St.give]

/-! ## Templates -/

theorem mkdirs_ok (rest : List Text) : ∀ (d : Disk B) (base : Path), (∀ t, t <+: rest → ∀ b, d (base ++ t) ≠ some (.file b)) →
    (mkdirs d base rest).2 = true := by
  induction rest with
  | nil =>
    intro d base h
    unfold mkdirs
    split
    · rename_i b hb
      exact (h [] (List.prefix_refl _) b (by simpa using hb)).elim
    · rfl
    · rfl
  | cons c rest ih =>
    intro d base h
    unfold mkdirs
    have hpre : ∀ t, t <+: rest → c :: t <+: c :: rest := fun t ht => List.prefix_cons_inj c |>.mpr ht
    split
    · rename_i b hb
      exact (h [] (List.nil_prefix) b (by simpa using hb)).elim
    · simp only
      exact ih _ _ fun t ht b => by simpa using h (c :: t) (hpre t ht) b
    · simp only
      refine ih _ _ fun t ht b => ?_
      have := h (c :: t) (hpre t ht) b
      rw [if_neg]
      · simpa using this
      · intro he
        have := congrArg List.length he
        simp at this

/-- Nothing is in the way of a template. -/
def Room (d : Disk B) (project : Path) (files : List (Path × B)) : Prop :=
  (∀ f ∈ files, ∀ t, t <+: project ++ f.1.dropLast → ∀ b, d t ≠ some (.file b)) ∧ ∀ f ∈ files, d (project ++ f.1) ≠ some .dir

theorem copy_ok (files : List (Path × B)) : ∀ (d : Disk B) (project : Path), (files.map (·.1)).Nodup → TreeLike files →
    (∀ f ∈ files, f.1 ≠ []) → Room d project files → (copyFiles d project files).2 = true := by
  induction files with
  | nil => intros; rfl
  | cons f files ih =>
    obtain ⟨rel, b⟩ := f
    intro d project hn ht hne hr
    have hrel : rel ≠ [] := hne (rel, b) (by simp)
    have hm : (mkdirs d [] (project ++ rel.dropLast)).2 = true :=
      mkdirs_ok _ _ _ fun t htp b' => by simpa using hr.1 (rel, b) (by simp) t htp b'
    have hspec := (mkdirs_spec (project ++ rel.dropLast) d []).2.1
    rw [copyFiles]
    generalize mkdirs d [] (project ++ rel.dropLast) = md at hm hspec
    obtain ⟨d1, ok⟩ := md
    simp only at hm hspec
    subst hm
    -- a prefix of the directories is shorter than the file
    have hshort : ∀ x, x <+: project ++ rel.dropLast → x ≠ project ++ rel := by
      intro x hx he
      have := hx.length_le
      rw [he] at this
      simp only [List.length_append, List.length_dropLast] at this
      have : rel.length ≠ 0 := by simpa using hrel
      omega
    have hw : ∃ d2, writeFile d1 (project ++ rel) b = some d2 ∧ d2 = fun x => if x = project ++ rel then some (.file b) else d1 x := by
      have hnd : d1 (project ++ rel) ≠ some .dir := by
        intro hd
        by_cases hsame : d1 (project ++ rel) = d (project ++ rel)
        · exact hr.2 (rel, b) (by simp) (hsame ▸ hd)
        · exact hshort _ (by simpa using (hspec _ hsame).2.2) rfl
      unfold writeFile
      split
      · rename_i hd; exact (hnd hd).elim
      · exact ⟨_, rfl, rfl⟩
    obtain ⟨d2, hw1, hw2⟩ := hw
    simp only [hw1]
    have hnot : ∀ g ∈ files, ¬ rel <+: g.1 ∧ ¬ g.1 <+: rel := by
      intro g hg
      have hd : rel ≠ g.1 := by
        simp only [List.map_cons, List.nodup_cons, List.mem_map] at hn
        rintro rfl
        exact hn.1 ⟨g, hg, rfl⟩
      exact ⟨fun h => hd (ht (rel, b) (by simp) g (by simp [hg]) h), fun h => hd (ht g (by simp [hg]) (rel, b) (by simp) h).symm⟩
    have hdrop : ∀ (l : Path), l.dropLast <+: l := fun l => List.dropLast_prefix l
    refine ih d2 project (by simp at hn; exact hn.2) (fun f hf g hg => ht f (by simp [hf]) g (by simp [hg]))
      (fun f hf => hne f (by simp [hf])) ⟨?_, ?_⟩
    · intro g hg t htp b' hb'
      rw [hw2] at hb'
      simp only at hb'
      split at hb'
      · rename_i he
        subst he
        have h1 : rel <+: g.1.dropLast := (List.prefix_append_right_inj project).mp htp
        exact (hnot g hg).1 (h1.trans (hdrop _))
      · by_cases hsame : d1 t = d t
        · exact hr.1 g (by simp [hg]) t htp b' (hsame ▸ hb')
        · rw [(hspec _ hsame).1] at hb'; cases hb'
    · intro g hg hd
      rw [hw2] at hd
      simp only at hd
      split at hd
      · cases hd
      · by_cases hsame : d1 (project ++ g.1) = d (project ++ g.1)
        · exact hr.2 g (by simp [hg]) (hsame ▸ hd)
        · have h1 : project ++ g.1 <+: project ++ rel.dropLast := by simpa using (hspec _ hsame).2.2
          exact (hnot g hg).2 (((List.prefix_append_right_inj project).mp h1).trans (hdrop _))

/-- **C80.** If the project directory is new or empty and no file is on the way to it, the template is copied. -/
theorem template_copied_whole (d : Disk B) (project : Path) (empty : Bool) (files : List (Path × B)) (hn : (files.map (·.1)).Nodup)
    (ht : TreeLike files) (hne : ∀ f ∈ files, f.1 ≠ []) (hup : ∀ t, t <+: project → ∀ b, d t ≠ some (.file b))
    (hbelow : ∀ rel, rel ≠ [] → d (project ++ rel) = none) (hempty : d project = some .dir → empty = true) :
    (scaffold d project empty files).2 = true ∧
      ∀ f ∈ files, (scaffold d project empty files).1 (project ++ f.1) = some (.file f.2) := by
  have hroom : Room d project files := by
    constructor
    · intro f hf t htp b hb
      rcases Nat.le_total t.length project.length with hl | hl
      · exact hup t (List.prefix_of_prefix_length_le htp (List.prefix_append _ _) hl) b hb
      · have hp : project <+: t := List.prefix_of_prefix_length_le (List.prefix_append _ _) htp hl
        obtain ⟨r, rfl⟩ := hp
        by_cases hr : r = []
        · subst hr; exact hup _ (by simp) b hb
        · rw [hbelow r hr] at hb; cases hb
    · intro f hf hd
      rw [hbelow f.1 (hne f hf)] at hd
      cases hd
  have hok : (scaffold d project empty files).2 = true := by
    unfold scaffold
    split
    · rename_i b hb
      exact (hup project (List.prefix_refl _) b hb).elim
    · rename_i hd
      rw [if_pos (hempty hd)]
      exact copy_ok files d project hn ht hne hroom
    · exact copy_ok files d project hn ht hne hroom
  exact ⟨hok, (template_copied d project empty files hn).1 hok⟩

/-- A template with a file in a directory, copied to a new directory below one that is there. -/
example : let files : List (Path × Nat) := [([['a']], 1), ([['b'], ['c']], 2)]
    (files.map (·.1)).Nodup ∧ TreeLike files ∧ (∀ f ∈ files, f.1 ≠ []) ∧
      (scaffold (fun x => if x = [] then some .dir else none) [['p']] false files).2 = true := by
  refine ⟨by decide, ?_, by decide, by decide +kernel⟩
  unfold TreeLike
  decide

end Tinymist.Packages
