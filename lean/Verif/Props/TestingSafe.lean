import Verif.Props.TestingRefs
import Verif.Lemmas.Util
/-! C76, C77, continued: runs that are cut short, failing system calls, examples that share files, the log, and watching. -/
namespace Tinymist.Testing
variable {B : Type} [DecidableEq B]

/-! Steps that keep something, whatever the others do -/

/-- Every step of the case keeps `J`. -/
def Keeps (J : St B → Prop) : Prog B → Prop
  | .done => True
  | .act u n => ∀ s b, J s → J (u s b) ∧ Keeps J (n s b)

theorem run_keeps {J : St B → Prop} (sched : List (Nat × Bool)) (c : List (Prog B) × St B) (hp : ∀ p ∈ c.1, Keeps J p) (hj : J c.2) :
    J (run sched c).2 := by
  induction sched generalizing c with
  | nil => exact hj
  | cons x sched ih =>
    have key : (∀ p ∈ (step x.1 x.2 c).1, Keeps J p) ∧ J (step x.1 x.2 c).2 := by
      unfold step
      split
      · rename_i u n hi
        have hk := hp _ (List.mem_of_getElem? hi) c.2 x.2 hj
        refine ⟨fun p hp' => ?_, hk.1⟩
        rcases List.mem_or_eq_of_mem_set hp' with h | h
        · exact hp p h
        · rw [h]; exact hk.2
      · exact ⟨hp, hj⟩
    exact ih _ key.1 key.2

theorem keeps_say {J : St B → Prop} {f : St B → St B} (hf : ∀ s, J s → J (f s)) {p : Prog B} (hp : Keeps J p) : Keeps J (say f p) :=
  fun s _ hs => ⟨hf s hs, hp⟩

/-- A reference stays: its hash and its image. -/
def Stays (k : Kind) (e : Name) (h : B) (r : Option B) (s : St B) : Prop :=
  s.fs (hashOf k e) = some h ∧ s.fs (imageOf k e) = r

theorem stays_of_fs {k : Kind} {e : Name} {h : B} {r : Option B} {s s' : St B} (hs : Stays k e h r s) (hf : s'.fs = s.fs) :
    Stays k e h r s' := by unfold Stays; rw [hf]; exact hs

theorem stays_write {k : Kind} {e : Name} {h : B} {r : Option B} {s : St B} (hs : Stays k e h r s) {f : File} (b : Option B)
    (h1 : hashOf k e ≠ f) (h2 : imageOf k e ≠ f) : Stays k e h r (s.write f b) := by
  unfold Stays St.write
  simp only [h1, h2, if_false]
  exact hs

theorem tmp_not_hash (k k' : Kind) (e e' : Name) : hashOf k e ≠ tmpFile k' e' := by
  intro h
  have h := congrArg (fun f => f.name.getLast?) h
  cases k' <;> simp [hashOf, tmpFile, ext] at h

theorem ref_not_hash (k k' : Kind) (e e' : Name) : hashOf k e ≠ refFile k' e' := by
  intro h
  have h := congrArg (fun f => f.name.getLast?) h
  cases k' <;> simp [hashOf, refFile, ext] at h

theorem tmp_not_image {k k' : Kind} {e e' : Name} (he : ¬ ∃ t, e = t ++ ['.', 't', 'm', 'p']) : imageOf k e ≠ tmpFile k' e' := by
  intro h
  have hk : k = k' := congrArg File.kind h
  subst hk
  have h := congrArg File.name h
  refine he ⟨stem e', ?_⟩
  cases k
  · exact List.append_cancel_right (bs := ['.', 'p', 'n', 'g']) (by simpa [imageOf, tmpFile, ext] using h)
  · exact List.append_cancel_right (bs := ['.', 'h', 't', 'm', 'l']) (by simpa [imageOf, tmpFile, ext] using h)

theorem image_ref {k k' : Kind} {e e' : Name} (h : imageOf k e = refFile k' e') : hashOf k e = hashFile k' e' := by
  have hk : k = k' := congrArg File.kind h
  subst hk
  have h := congrArg File.name h
  have : e = stem e' := by
    cases k
    · exact List.append_cancel_right (bs := ['.', 'p', 'n', 'g']) (by simpa [imageOf, refFile, ext] using h)
    · exact List.append_cancel_right (bs := ['.', 'h', 't', 'm', 'l']) (by simpa [imageOf, refFile, ext] using h)
  simp [hashOf, hashFile, this]

theorem image_not_hash (k k' : Kind) (e e' : Name) : imageOf k e ≠ hashFile k' e' := by
  intro h
  have h := congrArg (fun f => f.name.getLast?) h
  cases k <;> simp [imageOf, hashFile] at h

section
variable {k : Kind} {e : Name} {h : B} {r : Option B} (he : ¬ ∃ t, e = t ++ ['.', 't', 'm', 'p'])
include he

theorem keeps_writeRef (hash : B → B) (e' : Name) (k' : Kind) (d : B) {cont : Bool → Prog B} (hc : ∀ b, Keeps (Stays k e h r) (cont b))
    (hne : hashOf k e ≠ hashFile k' e') : Keeps (Stays k e h r) (writeRef hash e' k' d cont) := by
  intro s b hs
  refine ⟨hs, ?_⟩
  simp only
  split
  · exact hc _
  · intro s b hs
    refine ⟨?_, ?_⟩
    · simp only; split
      · exact hs
      · exact stays_write hs _ (ref_not_hash k k' e e') fun hx => hne (image_ref hx)
    · simp only; split
      · exact hc _
      · intro s b hs
        refine ⟨?_, hc _⟩
        simp only; split
        · exact hs
        · exact stays_write hs _ hne (image_not_hash k k' e e')

theorem keeps_settle (hash : B → B) (e' : Name) (k' : Kind) (d : B) (equal : Bool) {cont : Bool → Prog B}
    (hc : ∀ b, Keeps (Stays k e h r) (cont b)) (hne : equal = false → hashOf k e ≠ hashFile k' e') :
    Keeps (Stays k e h r) (settle hash e' k' d equal cont) := by
  intro s b hs
  refine ⟨hs, ?_⟩
  have hend : Keeps (Stays k e h r) (if equal then cont false else writeRef hash e' k' d cont) := by
    cases equal
    · exact keeps_writeRef he hash e' k' d hc (hne rfl)
    · exact hc _
  simp only
  split
  · exact hc _
  · split
    · intro s b hs
      refine ⟨?_, ?_⟩
      · simp only; split
        · exact hs
        · exact stays_write hs _ (tmp_not_hash k k' e e') (tmp_not_image he)
      · simp only; split
        · exact hc _
        · exact hend
    · exact hend

theorem keeps_update (hash : B → B) (e' : Name) (k' : Kind) (d : B) {cont : Bool → Prog B}
    (hc : ∀ b, Keeps (Stays k e h r) (cont b)) : Keeps (Stays k e h r) (updateExample hash false e' k' d cont) := by
  intro s b hs
  refine ⟨hs, ?_⟩
  simp only
  split
  · exact hc _
  · split
    · rename_i hnone
      refine keeps_settle he hash e' k' d false hc fun _ hx => ?_
      rw [← hx, hs.1] at hnone
      cases hnone
    · intro s b hs
      refine ⟨hs, ?_⟩
      simp only
      split
      · exact hc _
      · split
        · exact hc _
        · split
          · exact keeps_settle he hash e' k' d true hc (by simp)
          · simp only [Bool.false_eq_true, if_false]
            intro s b hs
            refine ⟨?_, ?_⟩
            · simp only; split
              · exact hs
              · exact stays_write hs _ (tmp_not_hash k k' e e') (tmp_not_image he)
            · simp only; split
              · exact hc _
              · exact keeps_say (fun s hs => stays_of_fs hs rfl) (keeps_say (fun s hs => stays_of_fs hs rfl) (hc _))

theorem keeps_check (e' : Name) {cont : Bool → Prog B} (hc : ∀ b, Keeps (Stays k e h r) (cont b)) (b : Bool) :
    Keeps (Stays k e h r) (checkResult e' cont b) := by
  unfold checkResult
  split
  · exact keeps_say (fun s hs => stays_of_fs hs rfl) (hc _)
  · exact hc _

theorem keeps_render (hash : B → B) (e' : Name) (k' : Kind) (out : Option B) {cont : Bool → Prog B}
    (hc : ∀ b, Keeps (Stays k e h r) (cont b)) : Keeps (Stays k e h r) (render hash false e' k' out cont) := by
  unfold render
  split
  · exact keeps_update he hash e' k' _ (keeps_check he e' hc)
  · split
    · exact keeps_check he e' hc _
    · exact keeps_say (fun s hs => stays_of_fs hs rfl) (keeps_check he e' hc _)

omit he in
theorem keeps_build (w b : Bool) {p : Prog B} (hp : Keeps (Stays k e h r) p) : Keeps (Stays k e h r) (build w b p) := by
  cases w <;> cases b
  · exact hp
  · exact keeps_say (fun s hs => stays_of_fs hs rfl) hp
  · exact keeps_say (fun s hs => stays_of_fs hs rfl) hp
  · exact keeps_say (fun s hs => stays_of_fs hs rfl) (keeps_say (fun s hs => stays_of_fs hs rfl) hp)

omit he in
theorem keeps_finish (n : Name) (b : Bool) : Keeps (Stays k e h r) (finish n b) := by
  cases b
  · exact keeps_say (fun s hs => stays_of_fs hs rfl) trivial
  · exact keeps_say (fun s hs => stays_of_fs hs rfl) trivial

theorem keeps_example (hash : B → B) (x : Example B) : Keeps (Stays k e h r) (runExample hash false x) := by
  have hhtml : ∀ b, Keeps (Stays k e h r) (runHtml hash false x b) := by
    intro b
    unfold runHtml
    split
    · exact keeps_finish ..
    · exact keeps_build _ _ (keeps_finish ..)
    · exact keeps_build _ _ (keeps_render he hash _ _ _ fun b => keeps_finish ..)
  refine keeps_say (fun s hs => stays_of_fs hs rfl) ?_
  intro s b hs
  refine ⟨?_, ?_⟩
  · simp only; split
    · exact hs
    · exact stays_of_fs hs rfl
  · simp only; split
    · exact keeps_say (fun s hs => stays_of_fs hs rfl) trivial
    · split
      · exact keeps_build _ _ (keeps_finish ..)
      · exact keeps_build _ _ (keeps_render he hash _ _ _ hhtml)

theorem keeps_case (hash : B → B) (c : Case B) : Keeps (Stays k e h r) (runCase hash false c) := by
  cases c with
  | test n err =>
    cases err with
    | none => exact keeps_say (fun s hs => stays_of_fs hs rfl) (keeps_say (fun s hs => stays_of_fs hs rfl) trivial)
    | some m =>
      exact keeps_say (fun s hs => stays_of_fs hs rfl) (keeps_say (fun s hs => stays_of_fs hs rfl)
        (keeps_say (fun s hs => stays_of_fs hs rfl) trivial))
  | panic n err =>
    cases err with
    | none => exact keeps_say (fun s hs => stays_of_fs hs rfl) (keeps_say (fun s hs => stays_of_fs hs rfl) trivial)
    | some m =>
      refine keeps_say (fun s hs => stays_of_fs hs rfl) ?_
      split
      · exact keeps_say (fun s hs => stays_of_fs hs rfl) trivial
      · exact keeps_say (fun s hs => stays_of_fs hs rfl) (keeps_say (fun s hs => stays_of_fs hs rfl) trivial)
  | exampleFn n x =>
    cases x with
    | none => exact keeps_say (fun s hs => stays_of_fs hs rfl) trivial
    | some x => exact keeps_example he hash x
  | file x => exact keeps_example he hash x

end

/-- C77: without `--update` no recorded reference is ever changed, whatever the cases, their order, the system calls that fail
and the moment the run is cut short: where there is a hash, it stays, and so does the image, unless its name ends in
`.tmp`. -/
theorem references_kept (hash : B → B) (cases : List (Case B)) (fs : File → Option B) (sched : List (Nat × Bool)) (k : Kind) (e : Name)
    (hex : fs (hashOf k e) ≠ none) (he : ¬ ∃ t, e = t ++ ".tmp".toList) :
    (runAll hash false cases fs sched).2.fs (hashOf k e) = fs (hashOf k e) ∧
    (runAll hash false cases fs sched).2.fs (imageOf k e) = fs (imageOf k e) := by
  obtain ⟨h, hh⟩ := Option.ne_none_iff_exists'.mp hex
  have := run_keeps (J := Stays k e h (fs (imageOf k e))) sched (cases.map (runCase hash false), init fs) ?_ ⟨hh, rfl⟩
  · rw [hh]; exact this
  · intro p hp
    obtain ⟨c, -, rfl⟩ := List.mem_map.mp hp
    exact keeps_case he hash c

/-! Runs that are cut short -/

theorem keeps_local {O : File → Prop} {en : Option Name} {J : St B → Prop} {F : List File} (hF : ∀ f ∈ F, ¬ O f)
    (hJ : ∀ s s' : St B, (∀ f ∈ F, s'.fs f = s.fs f) → J s → J s') {p : Prog B} (hp : Local O en p) : Keeps J p := by
  induction p with
  | done => trivial
  | act u n ih => exact fun s b hs => ⟨hJ s _ (fun f hf => (hp.1 b).others s f (hF f hf)) hs, ih s b (hp.2.2 s b)⟩

section
variable (hash : B → B) (k : Kind) (e : Name) (d : B) (h0 r0 : Option B)

/-- Nothing has been written. -/
def Before (s : St B) : Prop := s.fs (hashFile k e) = h0 ∧ s.fs (refFile k e) = r0
/-- The image has been written, and the hash may have been. -/
def Written (s : St B) : Prop := s.fs (refFile k e) = some d ∧ (s.fs (hashFile k e) = h0 ∨ s.fs (hashFile k e) = some (hash d))

/-- From `Before` every step stays there or goes on to `Written`. -/
def Staged : Prog B → Prop
  | .done => True
  | .act u n => ∀ s b, Before k e h0 r0 s →
    (Before k e h0 r0 (u s b) ∧ Staged (n s b)) ∨ (Written hash k e d h0 (u s b) ∧ Keeps (Written hash k e d h0) (n s b))

def Good (p : Prog B) : Prop := Staged hash k e d h0 r0 p ∧ Keeps (Written hash k e d h0) p

variable {hash k e d h0 r0}

theorem before_congr {s s' : St B} (h : s'.fs (hashFile k e) = s.fs (hashFile k e) ∧ s'.fs (refFile k e) = s.fs (refFile k e))
    (hs : Before k e h0 r0 s) : Before k e h0 r0 s' := by unfold Before; rw [h.1, h.2]; exact hs
theorem written_congr {s s' : St B} (h : s'.fs (hashFile k e) = s.fs (hashFile k e) ∧ s'.fs (refFile k e) = s.fs (refFile k e))
    (hs : Written hash k e d h0 s) : Written hash k e d h0 s' := by unfold Written; rw [h.1, h.2]; exact hs

theorem good_act {u : St B → Bool → St B} {n : St B → Bool → Prog B}
    (hu : ∀ s b, (u s b).fs (hashFile k e) = s.fs (hashFile k e) ∧ (u s b).fs (refFile k e) = s.fs (refFile k e))
    (hn : ∀ s b, Good hash k e d h0 r0 (n s b)) : Good hash k e d h0 r0 (.act u n) :=
  ⟨fun s b hs => Or.inl ⟨before_congr (hu s b) hs, (hn s b).1⟩, fun s b hs => ⟨written_congr (hu s b) hs, (hn s b).2⟩⟩

theorem good_say {f : St B → St B} (hf : ∀ s, (f s).fs = s.fs) {p : Prog B} (hp : Good hash k e d h0 r0 p) :
    Good hash k e d h0 r0 (say f p) :=
  good_act (fun s _ => by rw [hf]; exact ⟨rfl, rfl⟩) fun _ _ => hp

theorem write_other {s : St B} {f : File} {b : Option B} {c : Bool} (h1 : hashFile k e ≠ f) (h2 : refFile k e ≠ f) :
    (if c then s else s.write f b).fs (hashFile k e) = s.fs (hashFile k e) ∧
    (if c then s else s.write f b).fs (refFile k e) = s.fs (refFile k e) := by
  cases c
  · simp [St.write, h1, h2]
  · exact ⟨rfl, rfl⟩

theorem good_ite {c : Prop} [Decidable c] {p q : Prog B} (hp : Good hash k e d h0 r0 p) (hq : Good hash k e d h0 r0 q) :
    Good hash k e d h0 r0 (if c then p else q) := by split <;> assumption

theorem kind_ne {k' : Kind} (h : k' ≠ k) {n n' : Name} : (⟨k, n⟩ : File) ≠ ⟨k', n'⟩ := fun hx => h (congrArg File.kind hx).symm

theorem good_writeRef {k' : Kind} {d' : B} (hd : k' = k → d' = d) {cont : Bool → Prog B} (hc : ∀ b, Good hash k e d h0 r0 (cont b)) :
    Good hash k e d h0 r0 (writeRef hash e k' d' cont) := by
  refine good_act (fun _ _ => ⟨rfl, rfl⟩) fun _ _ => good_ite (hc _) ?_
  by_cases hk : k' = k
  · subst hk
    have hd' : d' = d := hd rfl
    subst hd'
    have hrest : Keeps (Written hash k' e d' h0)
        (.act (fun s f => if f then s else s.write (hashFile k' e) (some (hash d'))) fun _ f => cont f) := by
      intro s b hs
      refine ⟨?_, (hc b).2⟩
      simp only
      split
      · exact hs
      · refine ⟨?_, Or.inr ?_⟩
        · simp only [St.write, ref_ne_hash, if_false]; exact hs.1
        · simp [St.write]
    constructor
    · intro s b hs
      cases b
      · right
        refine ⟨⟨by simp [St.write], Or.inl ?_⟩, hrest⟩
        simp only [St.write, (ref_ne_hash k' e).symm, if_false, Bool.false_eq_true]; exact hs.1
      · exact Or.inl ⟨hs, (hc _).1⟩
    · intro s b hs
      cases b
      · refine ⟨⟨by simp [St.write], ?_⟩, hrest⟩
        simp only [St.write, (ref_ne_hash k' e).symm, if_false, Bool.false_eq_true]; exact hs.2
      · exact ⟨hs, (hc _).2⟩
  · refine good_act (fun s b => write_other (kind_ne hk) (kind_ne hk)) fun _ _ => good_ite (hc _) ?_
    exact good_act (fun s b => write_other (kind_ne hk) (kind_ne hk)) fun _ _ => hc _

theorem tmp_apart (k' : Kind) : hashFile k e ≠ tmpFile k' e ∧ refFile k e ≠ tmpFile k' e := by
  by_cases hk : k' = k
  · subst hk
    exact ⟨(tmp_ne_hash k' e).symm, ref_ne_tmp k' e⟩
  · exact ⟨kind_ne hk, kind_ne hk⟩

theorem good_settle {k' : Kind} {d' : B} (hd : k' = k → d' = d) (equal : Bool) {cont : Bool → Prog B}
    (hc : ∀ b, Good hash k e d h0 r0 (cont b)) : Good hash k e d h0 r0 (settle hash e k' d' equal cont) := by
  refine good_act (fun _ _ => ⟨rfl, rfl⟩) fun _ _ => good_ite (hc _) (good_ite ?_ (good_ite (hc _) (good_writeRef hd hc)))
  exact good_act (fun s b => write_other (tmp_apart k').1 (tmp_apart k').2) fun _ _ =>
    good_ite (hc _) (good_ite (hc _) (good_writeRef hd hc))

theorem good_update (update : Bool) {k' : Kind} {d' : B} (hd : k' = k → d' = d) {cont : Bool → Prog B}
    (hc : ∀ b, Good hash k e d h0 r0 (cont b)) : Good hash k e d h0 r0 (updateExample hash update e k' d' cont) := by
  refine good_act (fun _ _ => ⟨rfl, rfl⟩) fun _ _ => good_ite (hc _) (good_ite (good_settle hd _ hc) ?_)
  refine good_act (fun _ _ => ⟨rfl, rfl⟩) fun _ _ => ?_
  split
  · exact hc _
  · refine good_ite (hc _) (good_ite (good_settle hd _ hc) (good_ite (good_settle hd _ hc) ?_))
    exact good_act (fun s b => write_other (tmp_apart k').1 (tmp_apart k').2) fun _ _ =>
      good_ite (hc _) (good_say (fun _ => rfl) (good_say (fun _ => rfl) (hc _)))

theorem good_render (update : Bool) {k' : Kind} {out : Option B} (hd : k' = k → ∀ d', out = some d' → d' = d) {cont : Bool → Prog B}
    (hc : ∀ b, Good hash k e d h0 r0 (cont b)) : Good hash k e d h0 r0 (render hash update e k' out cont) := by
  have hcheck : ∀ b, Good hash k e d h0 r0 (checkResult e cont b) := by
    intro b
    cases b
    · exact hc _
    · exact good_say (fun _ => rfl) (hc _)
  cases out with
  | some d' => exact good_update update (fun hk => hd hk d' rfl) hcheck
  | none =>
    cases k'
    · exact hcheck _
    · exact good_say (fun _ => rfl) (hcheck _)

theorem good_build (w b : Bool) {p : Prog B} (hp : Good hash k e d h0 r0 p) : Good hash k e d h0 r0 (build w b p) := by
  cases w <;> cases b
  · exact hp
  · exact good_say (fun _ => rfl) hp
  · exact good_say (fun _ => rfl) hp
  · exact good_say (fun _ => rfl) (good_say (fun _ => rfl) hp)

theorem good_done : Good hash k e d h0 r0 (.done : Prog B) := ⟨trivial, trivial⟩

theorem good_finish (n : Name) (b : Bool) : Good hash k e d h0 r0 (finish n b) := by
  cases b <;> exact good_say (fun _ => rfl) good_done

theorem good_example (update : Bool) {x : Example B} (hx : Outputs x k d) : Good hash k x.name d h0 r0 (runExample hash update x) := by
  have hhtml : ∀ b, Good hash k x.name d h0 r0 (runHtml hash update x b) := by
    intro b
    unfold runHtml
    split
    · exact good_finish ..
    · exact good_build _ _ (good_finish ..)
    · rename_i w out hw
      refine good_build _ _ (good_render update ?_ fun b => good_finish ..)
      rintro rfl d' rfl
      obtain ⟨-, w', h⟩ := (hx : x.paged.isSome = true ∧ ∃ w, x.html = some (w, some (some d)))
      rw [hw] at h
      cases h; rfl
  refine good_say (fun _ => rfl) (good_act ?_ fun s _ => good_ite (good_say (fun _ => rfl) good_done) ?_)
  · intro s b
    split <;> exact ⟨rfl, rfl⟩
  · split
    · exact good_build _ _ (good_finish ..)
    · rename_i out hp
      refine good_build _ _ (good_render update ?_ hhtml)
      rintro rfl d' rfl
      have h : x.paged = some (some d) := hx
      rw [hp] at h
      cases h; rfl

end

theorem run_staged {hash : B → B} {k : Kind} {e : Name} {d : B} {h0 r0 : Option B} (i : Nat) (sched : List (Nat × Bool))
    (c : List (Prog B) × St B)
    (hother : ∀ (j : Nat) p, j ≠ i → c.1[j]? = some p → ∃ O en, Local O en p ∧ ¬ O (hashFile k e) ∧ ¬ O (refFile k e))
    (h : (Before k e h0 r0 c.2 ∧ ∀ p, c.1[i]? = some p → Staged hash k e d h0 r0 p) ∨
      (Written hash k e d h0 c.2 ∧ ∀ p, c.1[i]? = some p → Keeps (Written hash k e d h0) p)) :
    Before k e h0 r0 (run sched c).2 ∨ Written hash k e d h0 (run sched c).2 := by
  induction sched generalizing c with
  | nil => exact h.imp And.left And.left
  | cons y sched ih =>
    obtain ⟨j, b⟩ := y
    have heq : run ((j, b) :: sched) c = run sched (step j b c) := rfl
    rw [heq]
    cases hj : c.1[j]? with
    | none =>
      have : step j b c = c := by unfold step; rw [hj]
      rw [this]; exact ih c hother h
    | some p =>
      cases p with
      | done =>
        have : step j b c = c := by unfold step; rw [hj]
        rw [this]; exact ih c hother h
      | act u n =>
        have hst : step j b c = (c.1.set j (n c.2 b), u c.2 b) := by unfold step; rw [hj]
        have hlen : j < c.1.length := (List.getElem?_eq_some_iff.mp hj).1
        rw [hst]
        by_cases hji : j = i
        · subst hji
          refine ih _ (fun j' p hne hp => hother j' p hne ?_) ?_
          · rw [← hp]; exact (List.getElem?_set_ne (fun x => hne x.symm)).symm
          · have hself : ∀ p, (c.1.set j (n c.2 b))[j]? = some p → p = n c.2 b := by
              intro p hp
              rw [List.getElem?_set_self hlen] at hp
              cases hp; rfl
            rcases h with ⟨h1, h2⟩ | ⟨h1, h2⟩
            · rcases h2 _ hj c.2 b h1 with ⟨h3, h4⟩ | ⟨h3, h4⟩
              · exact Or.inl ⟨h3, fun p hp => by rw [hself p hp]; exact h4⟩
              · exact Or.inr ⟨h3, fun p hp => by rw [hself p hp]; exact h4⟩
            · have h3 := h2 _ hj c.2 b h1
              exact Or.inr ⟨h3.1, fun p hp => by rw [hself p hp]; exact h3.2⟩
        · obtain ⟨O, en, hl, ho1, ho2⟩ := hother j _ hji hj
          have hsame := And.intro ((hl.1 b).others c.2 _ ho1) ((hl.1 b).others c.2 _ ho2)
          refine ih _ (fun j' p hne hp => ?_) ?_
          · by_cases hjj : j' = j
            · subst hjj
              rw [List.getElem?_set_self hlen] at hp
              cases hp
              exact ⟨O, en, hl.2.2 c.2 b, ho1, ho2⟩
            · rw [List.getElem?_set_ne (fun x => hjj x.symm)] at hp
              exact hother j' p hne hp
          · have : (c.1.set j (n c.2 b))[i]? = c.1[i]? := List.getElem?_set_ne hji
            rw [this]
            rcases h with ⟨h1, h2⟩ | ⟨h1, h2⟩
            · exact Or.inl ⟨before_congr hsame h1, h2⟩
            · exact Or.inr ⟨written_congr hsame h1, h2⟩

/-- C77: wherever the run is cut short, whatever system calls fail, and in whatever order the cases move: the reference of an
output is as before, or the image is the new output and the hash is that of the output or as before. So a hash that
was written always belongs to the image beside it. -/
theorem cut_short_partial (hash : B → B) (update : Bool) {cases : List (Case B)} (fs : File → Option B) (sched : List (Nat × Bool))
    (hn : (exampleNames cases).Nodup) (hd : ∀ n ∈ exampleNames cases, '.' ∉ n) {c : Case B} (hc : c ∈ cases) {x : Example B}
    (hx : c.example? = some x) {k : Kind} {d : B} (ho : Outputs x k d) :
    let fs' := (runAll hash update cases fs sched).2.fs
    (fs' (hashOf k x.name) = fs (hashOf k x.name) ∧ fs' (imageOf k x.name) = fs (imageOf k x.name)) ∨
    (fs' (imageOf k x.name) = some d ∧ (fs' (hashOf k x.name) = fs (hashOf k x.name) ∨ fs' (hashOf k x.name) = some (hash d))) := by
  obtain ⟨i, hi⟩ := List.mem_iff_getElem?.mp hc
  have mem : ∀ (j : Nat) c' x', cases[j]? = some c' → c'.example? = some x' → x'.name ∈ exampleNames cases := by
    intro j c' x' h1 h2
    exact List.mem_filterMap.mpr ⟨c', List.mem_of_getElem? h1, by rw [h2]; rfl⟩
  have hdot := hd _ (mem i c x hi hx)
  have key := run_staged (hash := hash) (k := k) (e := x.name) (d := d) (h0 := fs (hashFile k x.name)) (r0 := fs (refFile k x.name)) i
    sched (cases.map (runCase hash update), init fs) ?_ (Or.inl ⟨⟨rfl, rfl⟩, ?_⟩)
  · rw [← hash_eq hdot, ← ref_eq hdot]
    exact key
  · intro j p hne hp
    simp only [List.getElem?_map, Option.map_eq_some_iff] at hp
    obtain ⟨c', hc', rfl⟩ := hp
    have hno : ∀ f, Own x.name f → ¬ c'.own f := by
      rintro f hf ⟨x', hx', hf'⟩
      have heq : x.name = x'.name := own_disjoint hdot (hd _ (mem j c' x' hc' hx')) hf hf'
      apply hne
      have := filterMap_index hn hi hc' (by rw [hx]; rfl) (by rw [hx']; exact congrArg some heq.symm)
      exact this.symm
    exact ⟨_, _, local_runCase hash update c', hno _ ⟨k, Or.inr (Or.inr rfl)⟩, hno _ ⟨k, Or.inl rfl⟩⟩
  · intro p hp
    simp only [List.getElem?_map, hi, Option.map_some, Option.some.injEq] at hp
    rw [← hp, runCase_example hash update hx]
    exact (good_example update ho).1

/-! Duplicates -/

theorem exit_of_failed {s : St B} (h : s.failed = true) : exitCode s = 1 := by
  unfold exitCode verdict
  by_cases hx : s.diags.any id = true <;> simp [hx, h]

theorem mild_failed {O : File → Prop} {e : Option Name} {u : St B → St B} (hm : Mild O e u) {s : St B} (h : s.failed = true) :
    (u s).failed = true := by
  obtain ⟨b, hb⟩ := hm.failed
  rw [hb, h]; rfl

/-- An example before it has claimed its name. -/
def Unclaimed (hash : B → B) (update : Bool) (x : Example B) (p : Prog B) : Prop :=
  p = runExample hash update x ∨ ∃ u n, p = .act u n ∧ runExample hash update x = say (St.start true x.name) p

structure Claims (hash : B → B) (update : Bool) (cases : List (Case B)) (c : List (Prog B) × St B) (C : Nat → Prop) : Prop where
  len : c.1.length = cases.length
  loc : ∀ (i : Nat) p, c.1[i]? = some p → ∃ O e, Local O e p
  stage : ∀ (i : Nat) cs x, cases[i]? = some cs → cs.example? = some x →
    C i ∨ ∃ p, c.1[i]? = some p ∧ (Unclaimed hash update x p ∨ p = say (St.fail true x.name) .done)
  names : ∀ (i : Nat) cs x, C i → cases[i]? = some cs → cs.example? = some x → x.name ∈ c.2.names
  once : ∀ (i j : Nat) cs cs' x x', C i → C j → cases[i]? = some cs → cases[j]? = some cs' → cs.example? = some x → cs'.example? = some x' →
    x.name = x'.name → i = j

/-- The second step of an example. -/
def claim (hash : B → B) (update : Bool) (x : Example B) : Prog B :=
  .act (fun s _ => if x.name ∈ s.names then s else { s with names := x.name :: s.names }) fun s _ =>
    if x.name ∈ s.names then say (St.fail true x.name) .done
    else
      match x.paged with
      | none => build x.warns true (finish x.name true)
      | some out => build x.warns false (render hash update x.name .paged out (runHtml hash update x))

theorem runExample_eq (hash : B → B) (update : Bool) (x : Example B) :
    runExample hash update x = say (St.start true x.name) (claim hash update x) := rfl

theorem claims_step {hash : B → B} {update : Bool} {cases : List (Case B)} {c : List (Prog B) × St B}
    (h : c.2.failed = true ∧ (∀ (i : Nat) p, c.1[i]? = some p → ∃ O e, Local O e p) ∨ ∃ C, Claims hash update cases c C) (i : Nat) (b : Bool) :
    (step i b c).2.failed = true ∧ (∀ (j : Nat) p, (step i b c).1[j]? = some p → ∃ O e, Local O e p) ∨
      ∃ C, Claims hash update cases (step i b c) C := by
  unfold step
  cases hi : c.1[i]? with
  | none => exact h
  | some p =>
    cases p with
    | done => exact h
    | act u n =>
      simp only
      have hlen : i < c.1.length := (List.getElem?_eq_some_iff.mp hi).1
      have hlocal : (∀ (i : Nat) p, c.1[i]? = some p → ∃ O e, Local (B := B) O e p) →
          ∀ (j : Nat) p, (c.1.set i (n c.2 b))[j]? = some p → ∃ O e, Local O e p := by
        intro hl j p hj
        by_cases hji : j = i
        · subst hji
          rw [List.getElem?_set_self hlen] at hj
          cases hj
          obtain ⟨O, e, hloc⟩ := hl j _ hi
          exact ⟨O, e, hloc.2.2 c.2 b⟩
        · rw [List.getElem?_set_ne (fun x => hji x.symm)] at hj
          exact hl j p hj
      rcases h with ⟨hf, hl⟩ | ⟨C, hC⟩
      · left
        obtain ⟨O, e, hloc⟩ := hl i _ hi
        exact ⟨mild_failed (hloc.1 b) hf, hlocal hl⟩
      · obtain ⟨O, e, hloc⟩ := hC.loc i _ hi
        have hmild := hloc.1 b
        have hlen' : (c.1.set i (n c.2 b)).length = cases.length := by rw [List.length_set]; exact hC.len
        have other : ∀ j, j ≠ i → (c.1.set i (n c.2 b))[j]? = c.1[j]? := fun j hj => List.getElem?_set_ne (fun x => hj x.symm)
        -- the case that moves
        have hcs : cases[i]? = some (cases[i]'(by rw [← hC.len]; exact hlen)) := List.getElem?_eq_getElem _
        generalize (cases[i]'(by rw [← hC.len]; exact hlen)) = cs at hcs
        -- nothing is claimed or given up by this step
        have keep : (∀ x, cs.example? = some x → C i ∨
            ∃ p, (c.1.set i (n c.2 b))[i]? = some p ∧ (Unclaimed hash update x p ∨ p = say (St.fail true x.name) .done)) →
            Claims hash update cases (c.1.set i (n c.2 b), u c.2 b) C := fun hstage =>
          { len := hlen'
            loc := hlocal hC.loc
            stage := by
              intro j cs' x hcs' hx
              by_cases hji : j = i
              · subst hji
                rw [hcs] at hcs'; cases hcs'
                exact hstage x hx
              · rcases hC.stage j cs' x hcs' hx with h | ⟨p, h1, h2⟩
                · exact Or.inl h
                · exact Or.inr ⟨p, (other j hji).trans h1, h2⟩
            names := fun j cs' x hc hcs' hx => hmild.grow _ _ (hC.names j cs' x hc hcs' hx)
            once := hC.once }
        by_cases hx : ∃ x, cs.example? = some x
        case neg => exact Or.inr ⟨C, keep fun x h => absurd ⟨x, h⟩ hx⟩
        obtain ⟨x, hx⟩ := hx
        rcases hC.stage i cs x hcs hx with hcl | ⟨p, hp, hst⟩
        · exact Or.inr ⟨C, keep fun y _ => Or.inl hcl⟩
        · rw [hi] at hp
          cases hp
          rcases hst with hun | hdoom
          · rcases hun with he | ⟨u', n', -, he⟩
            · -- it says that it runs
              rw [runExample_eq] at he
              injection he with he1 he2
              refine Or.inr ⟨C, keep fun y hy => ?_⟩
              rw [hx] at hy; cases hy
              right
              refine ⟨n c.2 b, List.getElem?_set_self hlen, Or.inl (Or.inr ?_)⟩
              rw [he2]
              exact ⟨_, _, rfl, rfl⟩
            · -- it claims its name
              have hcl : Prog.act u n = claim hash update x := by
                rw [runExample_eq] at he
                injection he with _ he2
                have := congrFun (congrFun he2 c.2) b
                exact this.symm
              injection hcl with e1 e2
              by_cases hmem : x.name ∈ c.2.names
              · refine Or.inr ⟨C, keep fun y hy => ?_⟩
                rw [hx] at hy; cases hy
                right
                refine ⟨n c.2 b, List.getElem?_set_self hlen, Or.inr ?_⟩
                rw [e2]
                simp only [hmem, if_true]
              · right
                refine ⟨fun j => C j ∨ j = i, ?_⟩
                have hnew : ∀ j cs' x', C j → cases[j]? = some cs' → cs'.example? = some x' → x'.name ≠ x.name := by
                  intro j cs' x' hcj h1 h2 heq
                  exact hmem (heq ▸ hC.names j cs' x' hcj h1 h2)
                exact
                  { len := hlen'
                    loc := hlocal hC.loc
                    stage := by
                      intro j cs' y hcs' hy
                      by_cases hji : j = i
                      · exact Or.inl (Or.inr hji)
                      · rcases hC.stage j cs' y hcs' hy with h | ⟨p, h1, h2⟩
                        · exact Or.inl (Or.inl h)
                        · exact Or.inr ⟨p, (other j hji).trans h1, h2⟩
                    names := by
                      intro j cs' y hc hcs' hy
                      rcases hc with hc | rfl
                      · exact hmild.grow _ _ (hC.names j cs' y hc hcs' hy)
                      · rw [hcs] at hcs'; cases hcs'
                        rw [hx] at hy; cases hy
                        rw [e1]
                        simp only [hmem, if_false]
                        exact List.mem_cons_self
                    once := by
                      intro j j' cs1 cs2 x1 x2 h1 h2 h3 h4 h5 h6 h7
                      rcases h1 with h1 | rfl <;> rcases h2 with h2 | rfl
                      · exact hC.once j j' cs1 cs2 x1 x2 h1 h2 h3 h4 h5 h6 h7
                      · rw [hcs] at h4; cases h4
                        rw [hx] at h6; cases h6
                        exact absurd h7 (hnew j cs1 x1 h1 h3 h5)
                      · rw [hcs] at h3; cases h3
                        rw [hx] at h5; cases h5
                        exact absurd h7.symm (hnew j' cs2 x2 h2 h4 h6)
                      · rfl }
          · -- it fails
            left
            injection hdoom with e1 e2
            refine ⟨?_, hlocal hC.loc⟩
            rw [e1]
            rfl

/-- C76: two examples of the same name never pass together, whatever the order of the cases and the system calls that
fail. -/
theorem duplicates_fail (hash : B → B) (update : Bool) (cases : List (Case B)) (fs : File → Option B) (sched : List (Nat × Bool))
    (hn : ¬ (exampleNames cases).Nodup) (he : Ended (runAll hash update cases fs sched)) :
    exitCode (runAll hash update cases fs sched).2 = 1 := by
  have hinit : ∃ C, Claims hash update cases (cases.map (runCase hash update), init fs) C := by
    refine ⟨fun _ => False, ?_⟩
    refine ⟨by simp, ?_, ?_, fun _ _ _ h => h.elim, fun _ _ _ _ _ _ h => h.elim⟩
    · intro i p hp
      simp only [List.getElem?_map, Option.map_eq_some_iff] at hp
      obtain ⟨c, -, rfl⟩ := hp
      exact ⟨_, _, local_runCase hash update c⟩
    · intro i cs x hcs hx
      right
      refine ⟨runCase hash update cs, by simp [hcs], Or.inl (Or.inl (runCase_example hash update hx))⟩
  have key : ∀ (sched : List (Nat × Bool)) (c : List (Prog B) × St B),
      (c.2.failed = true ∧ (∀ (i : Nat) p, c.1[i]? = some p → ∃ O e, Local O e p) ∨ ∃ C, Claims hash update cases c C) →
      ((run sched c).2.failed = true ∨ ∃ C, Claims hash update cases (run sched c) C) := by
    intro sched
    induction sched with
    | nil =>
      intro c h
      rcases h with h | h
      · exact Or.inl h.1
      · exact Or.inr h
    | cons x sched ih => intro c h; exact ih _ (claims_step h x.1 x.2)
  rcases key sched _ (Or.inr hinit) with h | ⟨C, hC⟩
  · exact exit_of_failed h
  · exfalso
    have hall : ∀ i cs x, cases[i]? = some cs → cs.example? = some x → C i := by
      intro i cs x hcs hx
      rcases hC.stage i cs x hcs hx with h | ⟨p, hp, hst⟩
      · exact h
      · have hdone := he p (List.mem_of_getElem? hp)
        subst hdone
        rcases hst with (h | ⟨u, n, h, -⟩) | h
        · rw [runExample_eq] at h; cases h
        · cases h
        · cases h
    apply hn
    unfold exampleNames
    rw [List.nodup_iff_pairwise_ne, List.pairwise_filterMap, List.pairwise_iff_getElem]
    intro i j hi hj hlt n h1 n' h2 heq
    subst heq
    simp only [Option.map_eq_some_iff] at h1 h2
    obtain ⟨x, hx, hxn⟩ := h1
    obtain ⟨x', hx', hxn'⟩ := h2
    have := hC.once i j _ _ x x' (hall i _ x (List.getElem?_eq_getElem hi) hx) (hall j _ x' (List.getElem?_eq_getElem hj) hx')
      (List.getElem?_eq_getElem hi) (List.getElem?_eq_getElem hj) hx hx' (hxn.trans hxn'.symm)
    omega

/-! What a user would not expect -/

/-- Two examples whose names differ after the dot, on no references. -/
def dotted : List (Case Nat) :=
  [.file ⟨"a.b".toList, false, some (some 1), none⟩, .file ⟨"a.c".toList, false, some (some 2), none⟩]

/-- Each case runs to its end before the next; the flags are all `false`. -/
def oneByOne (order : List Nat) : List (Nat × Bool) := order.flatMap fun i => List.replicate 9 (i, false)

/-- Both run in step, but the second writes its image first and its hash last. -/
def crossed : List (Nat × Bool) :=
  (List.replicate 5 [(0, false), (1, false)]).flatten ++ [(1, false), (0, false), (0, false), (1, false), (0, false), (1, false)]

def nothing : File → Option Nat := fun _ => none
def hundred (b : Nat) : Nat := 100 + b

instance (c : List (Prog B) × St B) : Decidable (Ended c) :=
  decidable_of_iff (c.1.all (fun p => match p with | .done => true | _ => false) = true) (by
    rw [List.all_eq_true]
    constructor
    · intro h p hp
      have := h p hp
      cases p with
      | done => rfl
      | act u n => cases this
    · intro h p hp
      rw [h p hp])

/-- C76, C77: two examples with different names, `a.b` and `a.c`, are kept in the same files. They are not reported as duplicates.
The image left depends on the order, although no reference was there and none differs from its own; and if both
look before either writes, both pass, and the hash left is not that of the image left. -/
theorem dotted_names_collide :
    (exampleNames dotted).Nodup ∧
    (Ended (runAll hundred false dotted nothing (oneByOne [0, 1])) ∧ Ended (runAll hundred false dotted nothing (oneByOne [1, 0])) ∧
      exitCode (runAll hundred false dotted nothing (oneByOne [0, 1])).2 = 1 ∧
      (runAll hundred false dotted nothing (oneByOne [0, 1])).2.fs ⟨.paged, "a.png".toList⟩ = some 1 ∧
      (runAll hundred false dotted nothing (oneByOne [1, 0])).2.fs ⟨.paged, "a.png".toList⟩ = some 2) ∧
    Ended (runAll hundred false dotted nothing crossed) ∧ exitCode (runAll hundred false dotted nothing crossed).2 = 0 ∧
      (runAll hundred false dotted nothing crossed).2.fs ⟨.paged, "a.png".toList⟩ = some 1 ∧
      (runAll hundred false dotted nothing crossed).2.fs ⟨.paged, "a.hash".toList⟩ = some 102 := by
  decide +kernel

theorem run_single (sched : List (Nat × Bool)) (hf : NoFailure sched) (p : Prog B) (s : St B) :
    ∃ p', (run sched ([p], s)).1 = [p'] ∧ p'.eval (run sched ([p], s)).2 = p.eval s := by
  induction sched generalizing p s with
  | nil => exact ⟨p, rfl, rfl⟩
  | cons y sched ih =>
    obtain ⟨j, b⟩ := y
    have hb : b = false := hf (j, b) (by simp)
    subst hb
    have hf' : NoFailure sched := fun z hz => hf z (List.mem_cons_of_mem _ hz)
    have heq : run ((j, false) :: sched) ([p], s) = run sched (step j false ([p], s)) := rfl
    rw [heq]
    cases j with
    | zero =>
      cases p with
      | done => exact ih hf' .done s
      | act u n => exact ih hf' (n s false) (u s false)
    | succ j => exact ih hf' p s

theorem single_end (hash : B → B) (update : Bool) (c : Case B) (fs : File → Option B) (sched : List (Nat × Bool)) (hf : NoFailure sched)
    (he : Ended (runAll hash update [c] fs sched)) : (runAll hash update [c] fs sched).2 = (runCase hash update c).eval (init fs) := by
  obtain ⟨p', h1, h2⟩ := run_single sched hf (runCase hash update c) (init fs)
  have : p' = .done := he p' (by unfold runAll; simp only [List.map_cons, List.map_nil]; rw [h1]; exact List.mem_singleton_self _)
  subst this
  exact h2

/-- C76: an example that differs from its reference is reported as failed and then as passed; only the exit code counts it as a
failure. -/
theorem mismatch_reported_passed (hash : B → B) (x : Example B) (d h : B) (fs : File → Option B) (sched : List (Nat × Bool))
    (hx : '.' ∉ x.name) (hp : x.paged = some (some d)) (hh : x.html = none) (hr : fs (hashOf .paged x.name) = some h) (hne : h ≠ hash d)
    (hf : NoFailure sched) (he : Ended (runAll hash false [.file x] fs sched)) :
    (runAll hash false [.file x] fs sched).2.log =
      [.running true x.name, .failed true x.name, .mismatch x.name, .passed true x.name] ∧
    exitCode (runAll hash false [.file x] fs sched).2 = 1 := by
  rw [← hash_eq hx] at hr
  have hupd : ∀ s : St B, s.fs = fs → updated hash false .paged x.name d s =
      ((s.write (tmpFile .paged x.name) (some d)).fail true x.name).differs x.name := by
    intro s hs
    unfold updated
    rw [hs, hr]
    simp [hne]
  have key : (runAll hash false [.file x] fs sched).2 = exampleDone hash false x
      { (init fs).start true x.name with names := [x.name] } := by
    rw [single_end hash false (.file x) fs sched hf he]
    exact eval_example hash false x (init fs) (by simp [init])
  have hfs : ∀ w, (built (B := B) w false { (init fs).start true x.name with names := [x.name] }).fs = fs := by
    intro w; rw [built_fs]; rfl
  have hlog : ∀ w, (built (B := B) w false { (init fs).start true x.name with names := [x.name] }).log = [.running true x.name] := by
    intro w; cases w <;> rfl
  have hval : exampleDone hash false x { (init fs).start true x.name with names := [x.name] } =
      ((((built x.warns false { (init fs).start true x.name with names := [x.name] }).write
        (tmpFile .paged x.name) (some d)).fail true x.name).differs x.name).pass true x.name := by
    unfold exampleDone
    rw [hp]
    simp only [rendered, htmlDone, hh]
    rw [hupd _ (hfs _)]
    rfl
  rw [key, hval]
  constructor
  · simp only [St.pass, St.differs, St.fail, St.write, hlog]
    rfl
  · exact exit_of_failed rfl

/-- C76: a test that is to panic passes on any error that mentions a panic, such as a misspelt variable. -/
theorem panic_by_name :
    let c : Case Nat := .panic "panic-on-empty".toList (some ["unknown variable: panicky".toList])
    Ended (runAll hundred false [c] nothing (oneByOne [0])) ∧ exitCode (runAll hundred false [c] nothing (oneByOne [0])).2 = 0 := by
  decide +kernel

/-! Watching -/

theorem watch_append (update : Bool) (l : List Key) (k : Key) : Watch.run update (l ++ [k]) = (Watch.run update l).step k := by
  simp [Watch.run, List.foldl_append]

theorem sinceRun_append (l : List Key) (k : Key) :
    sinceRun (l ++ [k]) = match k with | .compiled => [] | _ => sinceRun l ++ [k] := by
  cases k <;> simp [sinceRun, List.takeWhile_cons]

theorem watch_pending (update : Bool) (l : List Key) :
    (Watch.run update l).update = true ↔ Key.u ∈ sinceRun l ∨ update = true ∧ Key.compiled ∉ l := by
  induction l using Util.reverseInd with
  | nil => simp [Watch.run, sinceRun]
  | append_singleton l k ih =>
    rw [watch_append, sinceRun_append]
    cases k with
    | u => simp [Watch.step]
    | other => simp only [Watch.step, ih]; simp
    | compiled => simp [Watch.step]

/-- C77: while watching, a run updates the references exactly if `u` was entered since the last run, or if it is the first and
`--update` was given. -/
theorem watch_update (update : Bool) (l : List Key) :
    ∃ b, (Watch.run update (l ++ [.compiled])).runs = (Watch.run update l).runs ++ [b] ∧
      (b = true ↔ Key.u ∈ sinceRun l ∨ update = true ∧ Key.compiled ∉ l) :=
  ⟨_, by rw [watch_append]; rfl, watch_pending update l⟩

/-! The hypotheses can be met -/

/-- An example with a reference, one without, and a test. -/
def sample : List (Case Nat) :=
  [.file ⟨"a".toList, true, some (some 1), some (false, some (some 7))⟩, .file ⟨"b".toList, false, some (some 2), none⟩, .test "t".toList none]

def refs : File → Option Nat := fun f =>
  if f = ⟨.paged, "a.hash".toList⟩ then some 101 else if f = ⟨.paged, "a.png".toList⟩ then some 1 else none

def all3 : List (Nat × Bool) := (List.replicate 16 [(0, false), (1, false), (2, false)]).flatten

theorem noFailure_iff (l : List (Nat × Bool)) : NoFailure l ↔ l.all (fun x => !x.2) = true := by
  simp [NoFailure]

example : (exampleNames sample).Nodup ∧ (∀ n ∈ exampleNames sample, '.' ∉ n) ∧ all3.all (fun x => !x.2) = true ∧
    Ended (runAll hundred false sample refs all3) ∧ exitCode (runAll hundred false sample refs all3).2 = 0 ∧
    (runAll hundred false sample refs all3).2.fs ⟨.paged, "b.hash".toList⟩ = some 102 ∧
    (runAll hundred false sample refs all3).2.fs ⟨.html, "a.html".toList⟩ = some 7 := by decide +kernel
/-- The third system call of the second example fails. -/
example : exitCode (runAll hundred false sample refs ([(1, false), (1, false), (1, true)] ++ all3)).2 = 1 := by decide +kernel
example : refs (hashOf .paged "a".toList) ≠ none := by decide +kernel
example : ¬ (exampleNames (dotted ++ dotted)).Nodup ∧
    Ended (runAll hundred true (dotted ++ dotted) refs (oneByOne [0, 1, 2, 3])) := by decide +kernel
/-- Cut between image and hash. -/
example : (runAll hundred false sample refs (List.replicate 6 (1, false))).2.fs ⟨.paged, "b.png".toList⟩ = some 2 ∧
    (runAll hundred false sample refs (List.replicate 6 (1, false))).2.fs ⟨.paged, "b.hash".toList⟩ = none := by decide +kernel
example : refs (hashOf .paged "a".toList) = some 101 ∧ (101 : Nat) ≠ hundred 3 ∧
    Ended (runAll hundred false [.file ⟨"a".toList, false, some (some 3), none⟩] refs (oneByOne [0])) := by decide +kernel
example : Key.u ∈ sinceRun [.u, .compiled, .other, .u] := by simp [sinceRun]

end Tinymist.Testing
