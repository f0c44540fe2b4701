import Verif.Lemmas.Testing
/-! What a case does when it is alone. -/
namespace Tinymist.Testing
variable {B : Type} [DecidableEq B]

theorem eval_say (f : St B → St B) (p : Prog B) (s : St B) : (say f p).eval s = p.eval (f s) := rfl

/-- Without the file of an earlier mismatch. -/
def cleared (k : Kind) (e : Name) (s : St B) : St B := if (s.fs (tmpFile k e)).isSome then s.write (tmpFile k e) none else s

/-- With a new reference. -/
def replaced (hash : B → B) (k : Kind) (e : Name) (d : B) (s : St B) : St B :=
  ((cleared k e s).write (refFile k e) (some d)).write (hashFile k e) (some (hash d))

/-- After an output was looked at. -/
def updated (hash : B → B) (update : Bool) (k : Kind) (e : Name) (d : B) (s : St B) : St B :=
  if s.fs (hashFile k e) = some (hash d) then cleared k e s
  else if s.fs (hashFile k e) = none ∨ update = true then replaced hash k e d s
  else ((s.write (tmpFile k e) (some d)).fail true e).differs e

theorem eval_settle (hash : B → B) (e : Name) (k : Kind) (d : B) (equal : Bool) (cont : Bool → Prog B) (s : St B) :
    (settle hash e k d equal cont).eval s = (cont false).eval (if equal then cleared k e s else replaced hash k e d s) := by
  cases equal <;> cases h : s.fs (tmpFile k e) <;>
    simp [settle, Prog.eval, h, cleared, replaced, writeRef]

theorem eval_update (hash : B → B) (update : Bool) (e : Name) (k : Kind) (d : B) (cont : Bool → Prog B) (s : St B) :
    (updateExample hash update e k d cont).eval s = (cont false).eval (updated hash update k e d s) := by
  cases h : s.fs (hashFile k e) with
  | none => simp [updateExample, Prog.eval, h, eval_settle, updated]
  | some x =>
    by_cases hx : x = hash d
    · simp [updateExample, Prog.eval, h, hx, eval_settle, updated]
    · cases update
      · simp [updateExample, Prog.eval, h, hx, updated, reportMismatch, eval_say]
      · simp [updateExample, Prog.eval, h, hx, eval_settle, updated]

/-- The state after rendering, and whether there was an error. -/
def rendered (hash : B → B) (update : Bool) (k : Kind) (e : Name) (out : Option B) (s : St B) : St B :=
  match out with
  | some d => updated hash update k e d s
  | none => St.fail true e (match k with | .paged => s | .html => s.diag true)

theorem eval_render (hash : B → B) (update : Bool) (e : Name) (k : Kind) (out : Option B) (cont : Bool → Prog B) (s : St B) :
    (render hash update e k out cont).eval s = (cont out.isNone).eval (rendered hash update k e out s) := by
  cases out with
  | some d => simp only [render, eval_update, checkResult]; rfl
  | none => cases k <;> rfl

def built (w b : Bool) (s : St B) : St B :=
  let s := if w then s.diag false else s
  if b then s.diag true else s

theorem eval_build (w b : Bool) (p : Prog B) (s : St B) : (build w b p).eval s = p.eval (built w b s) := by
  cases w <;> cases b <;> rfl

theorem eval_finish (e : Name) (b : Bool) (s : St B) : (finish e b).eval s = if b then s.fail true e else s.pass true e := by
  cases b <;> rfl

def htmlDone (hash : B → B) (update : Bool) (x : Example B) (b : Bool) (s : St B) : St B :=
  match x.html with
  | none => if b then s.fail true x.name else s.pass true x.name
  | some (w, none) => (built w true s).fail true x.name
  | some (w, some out) =>
    let s := rendered hash update .html x.name out (built w false s)
    if b || out.isNone then s.fail true x.name else s.pass true x.name

theorem eval_runHtml (hash : B → B) (update : Bool) (x : Example B) (b : Bool) (s : St B) :
    (runHtml hash update x b).eval s = htmlDone hash update x b s := by
  unfold runHtml
  split
  · rename_i h; rw [eval_finish]; simp only [htmlDone, h]
  · rename_i h; rw [eval_build, eval_finish]; simp only [htmlDone, h, if_true]
  · rename_i h; rw [eval_build, eval_render, eval_finish]; simp only [htmlDone, h]

def exampleDone (hash : B → B) (update : Bool) (x : Example B) (s : St B) : St B :=
  match x.paged with
  | none => (built x.warns true s).fail true x.name
  | some out => htmlDone hash update x out.isNone (rendered hash update .paged x.name out (built x.warns false s))

theorem eval_example (hash : B → B) (update : Bool) (x : Example B) (s : St B) (h : x.name ∉ s.names) :
    (runExample hash update x).eval s =
      exampleDone hash update x { s.start true x.name with names := x.name :: s.names } := by
  have h' : x.name ∉ (s.start true x.name).names := h
  simp only [runExample, eval_say, Prog.eval, h', if_false]
  unfold exampleDone
  cases x.paged with
  | none => simp only [eval_build, eval_finish]; rfl
  | some out => simp only [eval_build, eval_render, eval_runHtml]; rfl

/-! Failure -/

@[simp] theorem fail_failed (ex : Bool) (n : Name) (s : St B) : (s.fail ex n).failed = true := rfl
@[simp] theorem pass_failed (ex : Bool) (n : Name) (s : St B) : (s.pass ex n).failed = s.failed := rfl
@[simp] theorem fail_fs (ex : Bool) (n : Name) (s : St B) : (s.fail ex n).fs = s.fs := rfl
@[simp] theorem pass_fs (ex : Bool) (n : Name) (s : St B) : (s.pass ex n).fs = s.fs := rfl
@[simp] theorem differs_fs (n : Name) (s : St B) : (s.differs n).fs = s.fs := rfl
@[simp] theorem diag_fs (b : Bool) (s : St B) : (s.diag b).fs = s.fs := rfl
@[simp] theorem built_fs (w b : Bool) (s : St B) : (built w b s).fs = s.fs := by cases w <;> cases b <;> rfl
@[simp] theorem built_failed (w b : Bool) (s : St B) : (built w b s).failed = s.failed := by cases w <;> cases b <;> rfl

/-- What is found at the places of an example. -/
def Fine (hash : B → B) (update : Bool) (fs : File → Option B) (e : Name) (k : Kind) (d : B) : Prop :=
  update = true ∨ fs (hashFile k e) = none ∨ fs (hashFile k e) = some (hash d)

theorem cleared_failed (k : Kind) (e : Name) (s : St B) : (cleared k e s).failed = s.failed := by
  unfold cleared; split <;> rfl

theorem updated_failed (hash : B → B) (update : Bool) (k : Kind) (e : Name) (d : B) (s : St B) :
    (updated hash update k e d s).failed = true ↔ s.failed = true ∨ ¬ Fine hash update s.fs e k d := by
  unfold updated Fine
  split
  · rename_i h; rw [cleared_failed]; simp [h]
  · rename_i h
    split
    · rename_i h'
      have : (replaced hash k e d s).failed = s.failed := cleared_failed k e s
      rw [this]
      rcases h' with h' | h' <;> simp [h']
    · rename_i h'
      simp only [not_or] at h'
      constructor
      · intro _
        right
        simp [h, h'.1, h'.2]
      · intro _; rfl

/-- Nothing outside the files of one output is touched. -/
theorem updated_other (hash : B → B) (update : Bool) (k : Kind) (e : Name) (d : B) (s : St B) (f : File) (hf : f.kind ≠ k) :
    (updated hash update k e d s).fs f = s.fs f := by
  have h1 : f ≠ tmpFile k e := fun h => hf (by rw [h]; rfl)
  have h2 : f ≠ refFile k e := fun h => hf (by rw [h]; rfl)
  have h3 : f ≠ hashFile k e := fun h => hf (by rw [h]; rfl)
  have hc : (cleared k e s).fs f = s.fs f := by unfold cleared; split <;> simp [St.write, h1]
  unfold updated
  split
  · exact hc
  · split
    · simp [replaced, St.write, h2, h3, hc]
    · simp [St.write, h1]

theorem rendered_other (hash : B → B) (update : Bool) (k : Kind) (e : Name) (out : Option B) (s : St B) (f : File) (hf : f.kind ≠ k) :
    (rendered hash update k e out s).fs f = s.fs f := by
  cases out with
  | some d => exact updated_other hash update k e d s f hf
  | none => cases k <;> rfl

theorem rendered_failed (hash : B → B) (update : Bool) (k : Kind) (e : Name) (out : Option B) (s : St B) :
    (rendered hash update k e out s).failed = true ↔ s.failed = true ∨ ¬ ∃ d, out = some d ∧ Fine hash update s.fs e k d := by
  cases out with
  | some d => simp only [rendered, updated_failed, Option.some.injEq, exists_eq_left']
  | none => simp [rendered]

theorem fine_congr {hash : B → B} {update : Bool} {fs fs' : File → Option B} {e : Name} {k : Kind} {d : B}
    (h : fs (hashFile k e) = fs' (hashFile k e)) : Fine hash update fs e k d ↔ Fine hash update fs' e k d := by
  unfold Fine; rw [h]

theorem htmlDone_failed (hash : B → B) (update : Bool) (x : Example B) (b : Bool) (s : St B) :
    (htmlDone hash update x b s).failed = true ↔ s.failed = true ∨ b = true ∨
      ¬ ∀ w out, x.html = some (w, out) → ∃ d, out = some (some d) ∧ Fine hash update s.fs x.name .html d := by
  unfold htmlDone
  split
  · rename_i h
    cases b <;> simp [h]
  · rename_i w h
    simp [h]
  · rename_i w out h
    simp only [h, Option.some.injEq, Prod.mk.injEq, and_imp, forall_eq_apply_imp_iff, forall_eq', true_and]
    have hr := rendered_failed hash update .html x.name out (built w false s)
    rw [built_failed, built_fs] at hr
    split
    · rename_i hb
      simp only [Bool.or_eq_true] at hb
      simp only [fail_failed, true_iff]
      rcases hb with hb | hb
      · exact Or.inr (Or.inl hb)
      · right; right
        cases out with
        | none => simp
        | some d => cases hb
    · rename_i hb
      simp only [Bool.or_eq_true, not_or, Bool.not_eq_true] at hb
      rw [pass_failed, hr, hb.1]
      simp

theorem exampleDone_failed (hash : B → B) (update : Bool) (x : Example B) (s : St B) :
    (exampleDone hash update x s).failed = true ↔ s.failed = true ∨
      ¬ ((∃ d, x.paged = some (some d) ∧ Fine hash update s.fs x.name .paged d) ∧
        ∀ w out, x.html = some (w, out) → ∃ d, out = some (some d) ∧ Fine hash update s.fs x.name .html d) := by
  unfold exampleDone
  cases hp : x.paged with
  | none => simp
  | some out =>
    simp only
    rw [htmlDone_failed, rendered_failed, built_failed, built_fs]
    have hh : ∀ d, Fine hash update (rendered hash update .paged x.name out (built x.warns false s)).fs x.name .html d ↔
        Fine hash update s.fs x.name .html d := by
      intro d
      apply fine_congr
      rw [rendered_other _ _ _ _ _ _ _ (by simp [hashFile]), built_fs]
    simp only [hh, Option.some.injEq]
    cases out with
    | none => simp
    | some d =>
      simp only [Option.some.injEq, exists_eq_left', Option.isNone_some, Bool.false_eq_true, false_or]
      by_cases h1 : s.failed = true <;> by_cases h2 : Fine hash update s.fs x.name .paged d <;> simp [h1, h2]

/-! Errors -/

/-- Whether an error was noted; only together with a failure. -/
theorem cleared_diags (k : Kind) (e : Name) (s : St B) : (cleared k e s).diags = s.diags := by
  unfold cleared; split <;> rfl

theorem updated_diags (hash : B → B) (update : Bool) (k : Kind) (e : Name) (d : B) (s : St B) :
    (updated hash update k e d s).diags = s.diags := by
  unfold updated
  split
  · exact cleared_diags k e s
  · split
    · exact cleared_diags k e s
    · rfl

def Sound (s : St B) : Prop := true ∈ s.diags → s.failed = true

theorem built_warn_diags (w : Bool) (s : St B) : true ∈ (built w false s).diags ↔ true ∈ s.diags := by
  cases w <;> simp [built, St.diag]

theorem rendered_sound (hash : B → B) (update : Bool) (k : Kind) (e : Name) (out : Option B) (s : St B) (h : Sound s) :
    Sound (rendered hash update k e out s) := by
  cases out with
  | some d =>
    intro hd
    simp only [rendered] at hd ⊢
    rw [updated_diags] at hd
    exact (updated_failed ..).mpr (Or.inl (h hd))
  | none => intro _; rfl

theorem built_sound (w : Bool) (s : St B) (h : Sound s) : Sound (built w false s) := by
  intro hd
  rw [built_failed]
  exact h ((built_warn_diags w s).mp hd)

theorem htmlDone_sound (hash : B → B) (update : Bool) (x : Example B) (b : Bool) (s : St B) (h : Sound s) :
    Sound (htmlDone hash update x b s) := by
  unfold htmlDone
  split
  · cases b
    · exact h
    · intro _; rfl
  · intro _; rfl
  · have := rendered_sound hash update .html x.name ‹_› _ (built_sound ‹_› s h)
    simp only
    split
    · intro _; rfl
    · exact this

theorem exampleDone_sound (hash : B → B) (update : Bool) (x : Example B) (s : St B) (h : Sound s) :
    Sound (exampleDone hash update x s) := by
  unfold exampleDone
  split
  · intro _; rfl
  · exact htmlDone_sound _ _ _ _ _ (rendered_sound _ _ _ _ _ _ (built_sound _ s h))

end Tinymist.Testing
