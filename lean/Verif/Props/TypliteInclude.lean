import Verif.Props.TypliteMarks

/-!
# C116: included files
-/

namespace Tinymist.Typlite

/-! ## More turns change nothing -/

/-- `m'` does what `m` does, unless that needs more turns. -/
def Le {α : Type} (m m' : M α) : Prop := ∀ w, m w = .error .deep ∨ m' w = m w

theorem le_refl {α : Type} (m : M α) : Le m m := fun _ => Or.inr rfl

theorem le_andThen {α β : Type} {m m' : M α} {f f' : α → M β} (h : Le m m') (hf : ∀ a, Le (f a) (f' a)) :
    Le (andThen m f) (andThen m' f') := by
  intro w
  rcases h w with h | h
  · exact Or.inl (andThen_error h)
  · unfold andThen
    rw [h]
    cases m w with
    | error e => exact Or.inr rfl
    | ok r => exact hf r.1 r.2

theorem le_ite {α : Type} {p : Prop} [Decidable p] {a a' b b' : M α} (h : Le a a') (h' : Le b b') :
    Le (if p then a else b) (if p then a' else b') := by
  split
  · exact h
  · exact h'

theorem le_reduce {ev ev' : Node → M Value} (h : ∀ n, Le (ev n) (ev' n)) (ns : List Node) : Le (reduceWith ev ns) (reduceWith ev' ns) := by
  induction ns with
  | nil => exact le_refl _
  | cons n ns ih => exact le_andThen (h n) fun v => le_andThen ih fun r => le_refl _

theorem le_evalAll {ev ev' : Node → M Value} (h : ∀ n, Le (ev n) (ev' n)) (ns : List Node) : Le (evalAll ev ns) (evalAll ev' ns) := by
  induction ns with
  | nil => exact le_refl _
  | cons n ns ih => exact le_andThen (h n) fun v => le_andThen ih fun r => le_refl _

theorem le_tableArgs {ev ev' : Node → M Value} (h : ∀ n, Le (ev n) (ev' n)) (kind : Text) (ns : List Node) :
    ∀ hs cs, Le (tableArgs ev kind ns hs cs) (tableArgs ev' kind ns hs cs) := by
  induction ns with
  | nil => intro hs cs; exact le_refl _
  | cons n ns ih =>
    intro hs cs
    cases n with
    | call src callee pos named =>
      rw [tableArgs, tableArgs]
      split
      · exact le_andThen (le_evalAll h pos) fun t => ih _ _
      · refine le_andThen (h _) fun v => ?_
        split
        · exact le_andThen (le_evalAll h pos) fun t => ih _ _
        · exact ih _ _
    | _ => exact le_andThen (h _) fun v => ih _ _

theorem le_contentArg {ev ev' : Node → M Value} (h : ∀ n, Le (ev n) (ev' n)) (key : Text) (pos : List Node) (named : List (Text × Node)) :
    Le (contentArg ev key pos named) (contentArg ev' key pos named) :=
  le_andThen (le_refl _) fun _ => le_andThen (h _) fun _ => le_refl _

theorem le_library {ev ev' : Node → M Value} (h : ∀ n, Le (ev n) (ev' n)) (gfm : Bool) (name : Text) (pos : List Node)
    (named : List (Text × Node)) : Le (library gfm ev name pos named) (library gfm ev' name pos named) := by
  unfold library
  refine le_ite ?_ (le_ite ?_ (le_ite ?_ (le_ite ?_ (le_ite ?_ (le_ite ?_ (le_ite ?_ (le_ite ?_ (le_ite ?_ (le_ite ?_ (le_ite ?_ (le_ite ?_ (le_ite ?_ (le_ite ?_ ?_)))))))))))))
  · exact le_andThen (le_refl _) fun _ => le_andThen (le_refl _) fun _ => le_andThen (le_contentArg h _ _ _) fun _ => le_refl _
  · exact le_refl _
  · exact le_andThen (le_refl _) fun _ => le_andThen (le_refl _) fun _ => le_andThen (h _) fun _ => le_refl _
  · exact le_refl _
  · refine le_andThen (le_refl _) fun _ => le_andThen (h _) fun _ => ?_
    split
    · exact le_refl _
    · exact le_andThen (h _) fun _ => le_refl _
  · exact le_refl _
  · exact le_andThen (le_contentArg h _ _ _) fun _ => le_refl _
  · exact le_andThen (le_refl _) fun _ => h _
  · exact le_andThen (le_contentArg h _ _ _) fun _ => le_refl _
  · exact le_andThen (le_contentArg h _ _ _) fun _ => le_refl _
  · exact le_andThen (le_contentArg h _ _ _) fun _ => le_refl _
  · exact le_andThen (le_contentArg h _ _ _) fun _ => le_refl _
  · exact le_andThen (le_contentArg h _ _ _) fun _ => le_refl _
  · exact le_andThen (le_refl _) fun _ => le_andThen (le_tableArgs h _ _ _ _) fun _ => le_refl _
  · exact le_refl _

theorem le_step {ev ev' : Node → M Value} (h : ∀ n, Le (ev n) (ev' n)) (env : Env) (n : Node) : Le (step env ev n) (step env ev' n) := by
  have hr := le_reduce h
  cases n with
  | strong b => exact le_andThen (hr b) fun _ => le_refl _
  | emph b => exact le_andThen (hr b) fun _ => le_refl _
  | heading l b => exact le_andThen (hr b) fun _ => le_refl _
  | enum k b => exact le_andThen (hr b) fun _ => le_refl _
  | group b => exact le_andThen (hr b) fun _ => le_refl _
  | wrap src b => exact h b
  | item b =>
    intro w
    rw [step, step]
    simp only
    cases env.annotate with
    | true =>
      simp only [if_true]
      rcases hr b { w with depth := w.depth + 1 } with e | e
      · rw [e]; exact Or.inl rfl
      · rw [e]; exact Or.inr rfl
    | false =>
      simp only [Bool.false_eq_true, if_false]
      rcases hr b w with e | e
      · rw [e]; exact Or.inl rfl
      · rw [e]; exact Or.inr rfl
  | incl file =>
    intro w
    cases file with
    | none => exact Or.inr rfl
    | some i =>
      rw [step, step]
      simp only
      rcases hr (env.file i) w with e | e
      · rw [e]; exact Or.inl rfl
      · rw [e]; exact Or.inr rfl
  | call src callee pos named =>
    cases callee with
    | ident name => exact le_library h env.gfm name pos named
    | _ => exact le_refl _
  | _ => exact le_refl _

theorem le_eval (env : Env) (fuel : Nat) : ∀ n, Le (eval env fuel n) (eval env (fuel + 1) n) := by
  induction fuel with
  | zero => intro n w; exact Or.inl rfl
  | succ fuel ih => intro n; exact le_andThen (le_step ih env n) fun _ => le_refl _

/-- **C116.** What a document is converted to does not depend on how many turns are given, if they are enough. -/
theorem convert_more (env : Env) (fuel fuel' main : Nat) (h : fuel ≤ fuel') (hd : convert env fuel main ≠ .error .deep) :
    convert env fuel' main = convert env fuel main := by
  induction h with
  | refl => rfl
  | step _ ih =>
    rename_i m _
    rw [← ih] at hd ⊢
    unfold convert at hd ⊢
    rcases le_reduce (le_eval env m) (env.file main) ⟨0, [], 0, []⟩ with e | e
    · rw [e] at hd
      exact absurd rfl hd
    · rw [e]

/-! ## Acyclic files -/

/-- No more turns are needed. -/
def Calm {α : Type} (m : M α) : Prop := ∀ w, m w ≠ .error .deep

theorem andThen_ret {α β : Type} (a : α) (f : α → M β) : andThen (ret a) f = f a := rfl

theorem andThen_fail {α β : Type} (e : Stop) (f : α → M β) : andThen (fail e) f = fail e := rfl

/-- What holds of results and errors and goes over to what is done one after the other. -/
structure Closed (P : ∀ {α : Type}, M α → Prop) : Prop where
  ret : ∀ {α : Type} (a : α), P (ret a)
  fail : ∀ {α : Type} {e : Stop}, e ≠ .deep → P (fail e : M α)
  bind : ∀ {α β : Type} {m : M α} {f : α → M β}, P m → (∀ a, P (f a)) → P (andThen m f)

theorem closed_reduce {P : ∀ {α : Type}, M α → Prop} (hP : Closed P) {ev : Node → M Value} {ns : List Node} (h : ∀ n ∈ ns, P (ev n)) :
    P (reduceWith ev ns) := by
  induction ns with
  | nil => exact hP.ret _
  | cons n ns ih => exact hP.bind (h n (by simp)) fun _ => hP.bind (ih fun m hm => h m (List.mem_cons_of_mem _ hm)) fun _ => hP.ret _

theorem closed_evalAll {P : ∀ {α : Type}, M α → Prop} (hP : Closed P) {ev : Node → M Value} {ns : List Node} (h : ∀ n ∈ ns, P (ev n)) :
    P (evalAll ev ns) := by
  induction ns with
  | nil => exact hP.ret _
  | cons n ns ih => exact hP.bind (h n (by simp)) fun _ => hP.bind (ih fun m hm => h m (List.mem_cons_of_mem _ hm)) fun _ => hP.ret _

theorem closed_tableArgs {P : ∀ {α : Type}, M α → Prop} (hP : Closed P) {ev : Node → M Value} {Q : Node → Prop}
    (hq : ∀ n, Q n → P (ev n)) (hc : ∀ src c pos named, Q (.call src c pos named) → ∀ n ∈ pos, Q n) (kind : Text) (ns : List Node)
    (h : ∀ n ∈ ns, Q n) : ∀ hs cs, P (tableArgs ev kind ns hs cs) := by
  induction ns with
  | nil => intro hs cs; exact hP.ret _
  | cons n ns ih =>
    intro hs cs
    have ih := ih fun m hm => h m (List.mem_cons_of_mem _ hm)
    have hn := h n (by simp)
    cases n with
    | call src callee pos named =>
      have hp : ∀ n ∈ pos, P (ev n) := fun n hm => hq n (hc _ _ _ _ hn n hm)
      rw [tableArgs]
      split
      · exact hP.bind (closed_evalAll hP hp) fun t => ih _ _
      · refine hP.bind (hq _ hn) fun v => ?_
        split
        · exact hP.bind (closed_evalAll hP hp) fun t => ih _ _
        · exact ih _ _
    | _ => exact hP.bind (hq _ hn) fun v => ih _ _

theorem getArg_mem {key : Text} {pos : List Node} {named : List (Text × Node)} {r : Node × List Node}
    (hr : getArg key pos named = some r) : (r.1 ∈ pos ∨ ∃ p ∈ named, p.2 = r.1) ∧ ∀ n ∈ r.2, n ∈ pos := by
  rw [getArg.eq_def] at hr
  split at hr
  · rename_i p hp
    simp only [Option.some.injEq] at hr
    subst hr
    exact ⟨Or.inr ⟨p, List.mem_of_find?_eq_some hp, rfl⟩, fun n hn => hn⟩
  · split at hr
    · simp at hr
    · simp only [Option.some.injEq] at hr
      subst hr
      exact ⟨Or.inl (by simp), fun n hn => List.mem_cons_of_mem _ hn⟩

theorem closed_arg {P : ∀ {α : Type}, M α → Prop} (hP : Closed P) (key : Text) (pos : List Node) (named : List (Text × Node)) :
    P (arg key pos named) := by
  unfold arg
  cases getArg key pos named with
  | some r => exact hP.ret _
  | none => exact hP.fail (by decide)

theorem closed_asStr {P : ∀ {α : Type}, M α → Prop} (hP : Closed P) (n : Node) : P (asStr n) := by
  unfold asStr
  split
  · exact hP.ret _
  · exact hP.fail (by decide)

theorem closed_columnsOf {P : ∀ {α : Type}, M α → Prop} (hP : Closed P) (named : List (Text × Node)) : P (columnsOf named) := by
  unfold columnsOf
  split
  · exact hP.ret _
  · exact hP.ret _
  · split
    · exact hP.fail (by decide)
    · exact hP.ret _
  · exact hP.fail (by decide)

theorem closed_withArg {P : ∀ {α : Type}, M α → Prop} (hP : Closed P) {β : Type} {key : Text} {pos : List Node}
    {named : List (Text × Node)} {f : Node × List Node → M β} {Q : Node → Prop} (hp : ∀ n ∈ pos, Q n) (hn : ∀ p ∈ named, Q p.2)
    (hf : ∀ n rest, Q n → (∀ m ∈ rest, Q m) → P (f (n, rest))) : P (andThen (arg key pos named) f) := by
  unfold arg
  cases h : getArg key pos named with
  | none =>
    rw [andThen_fail]
    exact hP.fail (by decide)
  | some r =>
    rw [andThen_ret]
    have := getArg_mem h
    refine hf r.1 r.2 ?_ (fun m hm => hp m (this.2 m hm))
    rcases this.1 with h | ⟨p, h, e⟩
    · exact hp _ h
    · rw [← e]
      exact hn p h

theorem closed_contentArg {P : ∀ {α : Type}, M α → Prop} (hP : Closed P) {ev : Node → M Value} {key : Text} {pos : List Node}
    {named : List (Text × Node)} {Q : Node → Prop} (hq : ∀ n, Q n → P (ev n)) (hp : ∀ n ∈ pos, Q n) (hn : ∀ p ∈ named, Q p.2) :
    P (contentArg ev key pos named) :=
  closed_withArg hP hp hn fun n _ h _ => hP.bind (hq n h) fun _ => hP.ret _

theorem closed_ite {P : ∀ {α : Type}, M α → Prop} {α : Type} {p : Prop} [Decidable p] {a b : M α} (h : P a) (h' : P b) :
    P (if p then a else b) := by
  split
  · exact h
  · exact h'

theorem closed_library {P : ∀ {α : Type}, M α → Prop} (hP : Closed P) {ev : Node → M Value} {Q : Node → Prop}
    (hq : ∀ n, Q n → P (ev n)) (hc : ∀ src c pos named, Q (.call src c pos named) → ∀ n ∈ pos, Q n)
    (hcl : ∀ src b, Q (.closure src b) → Q b) (gfm : Bool) (name : Text) (pos : List Node) (named : List (Text × Node))
    (hp : ∀ n ∈ pos, Q n) (hn : ∀ p ∈ named, Q p.2) : P (library gfm ev name pos named) := by
  have hfind : ∀ {key : Text} {p : Text × Node}, named.find? (fun p => decide (p.1 = key)) = some p → Q p.2 :=
    fun h => hn _ (List.mem_of_find?_eq_some h)
  have hbox : ∀ title, P (andThen (contentArg ev "body".toList pos named) fun body => ret (Value.content (noteBox title body))) :=
    fun title => hP.bind (closed_contentArg hP hq hp hn) fun _ => hP.ret _
  unfold library
  refine closed_ite ?_ (closed_ite ?_ (closed_ite ?_ (closed_ite ?_ (closed_ite ?_ (closed_ite ?_ (closed_ite ?_ (closed_ite ?_ (closed_ite ?_ (closed_ite ?_ (closed_ite ?_ (closed_ite ?_ (closed_ite ?_ (closed_ite ?_ ?_)))))))))))))
  · exact closed_withArg hP hp hn fun d rest hd hrest => hP.bind (closed_asStr hP _) fun _ =>
      hP.bind (closed_contentArg hP hq hrest hn) fun _ => hP.ret _
  · exact hP.bind (closed_arg hP _ _ _) fun _ => hP.bind (closed_asStr hP _) fun _ => hP.ret _
  · refine closed_withArg hP hp hn fun _ rest _ hrest => closed_withArg hP hrest hn fun r _ hr _ => hP.bind ?_ fun _ => hP.ret _
    cases r with
    | closure src b => exact hq _ (hcl src b hr)
    | _ => exact hq _ hr
  · refine hP.bind (closed_arg hP _ _ _) fun _ => hP.bind (closed_asStr hP _) fun _ => ?_
    split
    · exact hP.bind (closed_asStr hP _) fun _ => hP.ret _
    · exact hP.ret _
  · refine closed_withArg hP hp hn fun b _ hb _ => hP.bind (hq b hb) fun _ => ?_
    split
    · split
      · exact hP.ret _
      · exact hP.fail (by decide)
    · rename_i c h
      refine hP.bind (hq _ (hfind h)) fun _ => ?_
      split
      · exact hP.ret _
      · exact hP.fail (by decide)
  · exact hP.bind (closed_arg hP _ _ _) fun _ => hP.bind (closed_asStr hP _) fun _ => hP.ret _
  · exact hP.bind (closed_contentArg hP hq hp hn) fun _ => hP.ret _
  · exact closed_withArg hP hp hn fun b _ hb _ => hq b hb
  · exact hbox _
  · exact hbox _
  · exact hbox _
  · exact hbox _
  · exact hbox _
  · refine hP.bind (closed_columnsOf hP _) fun _ => hP.bind (closed_tableArgs hP hq hc _ _ hp _ _) fun r => ?_
    obtain ⟨header, cells⟩ := r
    simp only
    split
    · exact hP.fail (by decide)
    · exact hP.ret _
  · exact hP.fail (by decide)

theorem closed_calm : Closed @Calm where
  ret _ := fun _ h => by simp [ret] at h
  fail he := fun _ h' => by simp [fail] at h'; exact he h'
  bind := by
    intro α β m f h hf w
    unfold andThen
    have := h w
    split
    · exact hf _ _
    · rename_i e he
      rw [he] at this
      simpa using this

theorem calm_ret {α : Type} (a : α) : Calm (ret a) := closed_calm.ret a
theorem calm_fail {α : Type} {e : Stop} (h : e ≠ .deep) : Calm (fail e : M α) := closed_calm.fail h
theorem calm_andThen {α β : Type} {m : M α} {f : α → M β} (h : Calm m) (hf : ∀ a, Calm (f a)) : Calm (andThen m f) :=
  closed_calm.bind h hf
theorem calm_reduce {ev : Node → M Value} {ns : List Node} (h : ∀ n ∈ ns, Calm (ev n)) : Calm (reduceWith ev ns) :=
  closed_reduce closed_calm h

theorem calm_renderPiece (env : Env) (prepend code : Text) (inline : Bool) : Calm (renderPiece env prepend code inline) := by
  have hf : ∀ e w, renderFailed env e w ≠ .error .deep := by
    intro e w
    unfold renderFailed
    split <;> simp
  intro w
  unfold renderPiece renderCode
  simp only
  split
  · split
    · exact hf _ _
    · split <;> simp
  · split
    · exact hf _ _
    · split
      · exact hf _ _
      · split <;> simp

theorem calm_note (n : Node) (v : Value) : Calm (note n v) := by
  intro w
  unfold note
  split <;> simp

/-- What is enough for a node that includes only files below `r`, if no file is larger than `k`. -/
theorem calm_eval (env : Env) (rank : Nat → Nat) (k : Nat) (hk : ∀ i, sizeOf (env.file i) ≤ k)
    (hrank : ∀ i j, FileIncludes env.file i j → rank j < rank i) (fuel : Nat) :
    ∀ (n : Node) (r : Nat), (∀ i, Includes n i → rank i < r) → r * (k + 1) + sizeOf n ≤ fuel → Calm (eval env fuel n) := by
  induction fuel with
  | zero =>
    intro n r _ h
    have : 0 < sizeOf n := by cases n <;> simp <;> omega
    omega
  | succ fuel ih =>
    intro n r hr hsize
    rw [eval]
    refine calm_andThen ?_ fun v => calm_note n v
    have hbody : ∀ b : List Node, (∀ m ∈ b, ∀ i, Includes m i → rank i < r) → r * (k + 1) + sizeOf b ≤ fuel →
        Calm (reduceWith (eval env fuel) b) := by
      intro b hb hs
      refine calm_reduce fun m hm => ih m r (hb m hm) ?_
      have := List.sizeOf_lt_of_mem hm
      omega
    cases n with
    | text s => exact calm_ret _
    | linebreak => exact calm_ret _
    | hash => exact calm_ret _
    | code s => exact calm_ret _
    | quiet => exact calm_ret _
    | int s => exact calm_ret _
    | array s => exact calm_ret _
    | str s => exact calm_ret _
    | closure s b => exact calm_ret _
    | error => exact calm_fail (by decide)
    | strong b =>
      simp only [Node.strong.sizeOf_spec] at hsize
      exact calm_andThen (hbody b (fun m hm i hi => hr i (.strong hm hi)) (by omega)) fun _ => calm_ret _
    | emph b =>
      simp only [Node.emph.sizeOf_spec] at hsize
      exact calm_andThen (hbody b (fun m hm i hi => hr i (.emph hm hi)) (by omega)) fun _ => calm_ret _
    | heading l b =>
      simp only [Node.heading.sizeOf_spec] at hsize
      exact calm_andThen (hbody b (fun m hm i hi => hr i (.heading hm hi)) (by omega)) fun _ => calm_ret _
    | enum e b =>
      simp only [Node.enum.sizeOf_spec] at hsize
      exact calm_andThen (hbody b (fun m hm i hi => hr i (.enum hm hi)) (by omega)) fun _ => calm_ret _
    | group b =>
      simp only [Node.group.sizeOf_spec] at hsize
      exact calm_andThen (hbody b (fun m hm i hi => hr i (.group hm hi)) (by omega)) fun _ => calm_ret _
    | wrap src b =>
      simp only [Node.wrap.sizeOf_spec] at hsize
      exact ih b r (fun i hi => hr i (.wrap hi)) (by omega)
    | item b =>
      simp only [Node.item.sizeOf_spec] at hsize
      have hb := hbody b (fun m hm i hi => hr i (.item hm hi)) (by omega)
      intro w
      rw [step]
      simp only
      split
      · have := hb { w with depth := w.depth + 1 }
        split
        · simp
        · rename_i e he
          rw [he] at this
          simpa using this
      · have := hb w
        split
        · simp
        · rename_i e he
          rw [he] at this
          simpa using this
    | raw a b c d => exact calm_ret _
    | link url => exact calm_ret _
    | equation src block =>
      rw [step]
      split
      · exact calm_ret _
      · exact calm_andThen (calm_renderPiece _ _ _ _) fun _ => calm_ret _
    | context src =>
      intro w
      rw [step]
      simp only
      split
      · simp
      · exact calm_andThen (calm_renderPiece _ _ _ _) (fun _ => calm_ret _) _
    | incl file =>
      cases file with
      | none => intro w; simp [step]
      | some i =>
        have hi := hr i (.here i)
        have hle : rank i * (k + 1) + (k + 1) ≤ r * (k + 1) := by
          have := Nat.mul_le_mul_right (k + 1) (Nat.succ_le_of_lt hi)
          rw [Nat.succ_mul] at this
          exact this
        have hb : Calm (reduceWith (eval env fuel) (env.file i)) := by
          refine calm_reduce fun m hm => ih m (rank i) (fun j hj => hrank i j ⟨m, hm, hj⟩) ?_
          have h1 := List.sizeOf_lt_of_mem hm
          have h2 := hk i
          omega
        intro w
        rw [step]
        simp only
        have := hb w
        split
        · simp
        · rename_i e he
          rw [he] at this
          simpa using this
    | call src callee pos named =>
      cases callee with
      | ident name =>
        simp only [Node.call.sizeOf_spec] at hsize
        refine closed_library closed_calm (Q := fun n => (∀ i, Includes n i → rank i < r) ∧ r * (k + 1) + sizeOf n ≤ fuel)
          (fun n h => ih n r h.1 h.2) ?_ ?_ env.gfm name pos named ?_ ?_
        · intro src c pos named h n hn
          refine ⟨fun i hi => h.1 i (.pos hn hi), ?_⟩
          have h1 := h.2
          have h2 := List.sizeOf_lt_of_mem hn
          simp only [Node.call.sizeOf_spec] at h1
          omega
        · intro src b h
          refine ⟨fun i hi => h.1 i (.closure hi), ?_⟩
          have h1 := h.2
          simp only [Node.closure.sizeOf_spec] at h1
          omega
        · intro n hn
          refine ⟨fun i hi => hr i (.pos hn hi), ?_⟩
          have := List.sizeOf_lt_of_mem hn
          omega
        · intro p hp
          refine ⟨fun i hi => hr i (.named hp hi), ?_⟩
          have h1 := List.sizeOf_lt_of_mem hp
          have h2 : sizeOf p = 1 + sizeOf p.1 + sizeOf p.2 := by cases p; rfl
          omega
      | field a b => exact calm_ret _
      | other => exact calm_ret _

theorem reaches_trans {file : Nat → List Node} {i j k : Nat} (h : Reaches file i j) (h' : Reaches file j k) : Reaches file i k := by
  induction h with
  | one h => exact .more h h'
  | more h _ ih => exact .more h (ih h')

/-- The files a file reaches are fewer for the files it includes, if there is no way back. -/
theorem filter_fewer {p q : Nat → Bool} (l : List Nat) (h : ∀ x, p x → q x) {y : Nat} (hy : y ∈ l) (hq : q y) (hp : ¬ p y) :
    (l.filter p).length < (l.filter q).length := by
  have mono : ∀ l : List Nat, (l.filter p).length ≤ (l.filter q).length := by
    intro l
    induction l with
    | nil => exact Nat.le_refl _
    | cons x l ih =>
      by_cases hx : p x
      · rw [List.filter_cons_of_pos hx, List.filter_cons_of_pos (h x hx)]
        simpa using ih
      · rw [List.filter_cons_of_neg hx]
        by_cases hx' : q x
        · rw [List.filter_cons_of_pos hx']
          exact Nat.le_succ_of_le ih
        · rw [List.filter_cons_of_neg hx']
          exact ih
  induction l with
  | nil => simp at hy
  | cons x l ih =>
    by_cases e : y = x
    · subst e
      rw [List.filter_cons_of_neg hp, List.filter_cons_of_pos hq]
      exact Nat.lt_succ_of_le (mono l)
    · have ih := ih (by rcases List.mem_cons.mp hy with h | h; exact absurd h e; exact h)
      by_cases hx : p x
      · rw [List.filter_cons_of_pos hx, List.filter_cons_of_pos (h x hx)]
        simpa using ih
      · rw [List.filter_cons_of_neg hx]
        by_cases hx' : q x
        · rw [List.filter_cons_of_pos hx']
          exact Nat.lt_succ_of_lt ih
        · rw [List.filter_cons_of_neg hx']
          exact ih

/-- **C116.** If no file includes itself, not even over other files, the conversion of any file of a project ends. Missing: that this is
so for other projects, of which the next theorem says that it is not. -/
theorem conversion_ends_partial (env : Env) (files : List (List Node)) (hf : ∀ i, env.file i = files.getD i [])
    (hr : ∀ i, ¬ Reaches env.file i i) (main : Nat) : ∃ fuel, ∀ fuel' ≥ fuel, convert env fuel' main ≠ .error .deep := by
  let k := (files.map sizeOf).sum + 1
  have hk : ∀ i, sizeOf (env.file i) ≤ k := by
    intro i
    rw [hf i]
    rw [List.getD_eq_getElem?_getD]
    cases h : files[i]? with
    | none =>
      show sizeOf ([] : List Node) ≤ _
      simp only [List.nil.sizeOf_spec, k]
      omega
    | some f =>
      have hm := List.mem_of_getElem? h
      have : ∀ l : List (List Node), f ∈ l → sizeOf f ≤ (l.map sizeOf).sum := by
        intro l
        induction l with
        | nil => intro h; simp at h
        | cons x l ih =>
          intro h
          rcases List.mem_cons.mp h with rfl | h
          · simp
          · have := ih h
            simp only [List.map_cons, List.sum_cons]
            omega
      have := this files hm
      show sizeOf f ≤ k
      omega
  classical
  let rank : Nat → Nat := fun i => ((List.range files.length).filter fun j => decide (Reaches env.file i j ∧ ∃ n, n ∈ env.file j)).length
  let rank' : Nat → Nat := fun i => rank i + if env.file i = [] then 0 else 1
  have hrank : ∀ i j, FileIncludes env.file i j → rank' j < rank' i := by
    intro i j hij
    have hi : env.file i ≠ [] := by
      obtain ⟨n, hn, _⟩ := hij
      intro e
      rw [e] at hn
      simp at hn
    simp only [rank', if_neg hi]
    have hsub : ∀ x, decide (Reaches env.file j x ∧ ∃ n, n ∈ env.file x) = true →
        decide (Reaches env.file i x ∧ ∃ n, n ∈ env.file x) = true := by
      intro x hx
      simp only [decide_eq_true_eq] at hx ⊢
      exact ⟨.more hij hx.1, hx.2⟩
    by_cases hj : env.file j = []
    · rw [if_pos hj]
      have h0 : rank j = 0 := by
        simp only [rank]
        rw [List.length_eq_zero_iff, List.filter_eq_nil_iff]
        intro x _ hx
        simp only [decide_eq_true_eq] at hx
        have : ∀ {a b}, Reaches env.file a b → env.file a ≠ [] := by
          intro a b h
          cases h with
          | one h => obtain ⟨n, hn, _⟩ := h; intro e; rw [e] at hn; simp at hn
          | more h _ => obtain ⟨n, hn, _⟩ := h; intro e; rw [e] at hn; simp at hn
        exact this hx.1 hj
      omega
    · rw [if_neg hj]
      have hlt : j < files.length := by
        rcases Nat.lt_or_ge j files.length with h | h
        · exact h
        · exfalso
          apply hj
          rw [hf j, List.getD_eq_getElem?_getD, List.getElem?_eq_none h]
          rfl
      have hne : ∃ n, n ∈ env.file j := List.exists_mem_of_ne_nil _ hj
      have := filter_fewer (p := fun x => decide (Reaches env.file j x ∧ ∃ n, n ∈ env.file x))
        (q := fun x => decide (Reaches env.file i x ∧ ∃ n, n ∈ env.file x)) (List.range files.length) hsub
        (List.mem_range.mpr hlt) (by simp only [decide_eq_true_eq]; exact ⟨.one hij, hne⟩)
        (by simp only [decide_eq_true_eq]; exact fun h => hr j h.1)
      exact Nat.add_lt_add_right this 1
  refine ⟨rank' main * (k + 1) + k, ?_⟩
  intro fuel' hfuel h
  have hc : Calm (reduceWith (eval env fuel') (env.file main)) := by
    refine calm_reduce fun m hm => ?_
    refine calm_eval env rank' k hk hrank fuel' m (rank' main) (fun j hj => hrank main j ⟨m, hm, hj⟩) ?_
    have h1 := List.sizeOf_lt_of_mem hm
    have h2 := hk main
    omega
  unfold convert at h
  have := hc ⟨0, [], 0, []⟩
  split at h
  · simp at h
  · rename_i e he
    rw [he] at this
    simp only [Except.error.injEq] at h
    exact this (by rw [h])

/-- A document, a chapter and a part of it. -/
example : let file := fun i : Nat => ([[Node.text ['a'], .incl (some 1)], [.strong [.incl (some 2)]], [.text ['b']]] : List (List Node)).getD i []
    ∀ i, ¬ Reaches file i i := by
  intro file
  have key : ∀ i j, FileIncludes file i j → i < j := by
    intro i j ⟨n, hn, hj⟩
    match i, hn with
    | 0, hn =>
      simp only [file, List.getD_cons_zero, List.mem_cons, List.not_mem_nil, or_false] at hn
      rcases hn with rfl | rfl <;> cases hj
      omega
    | 1, hn =>
      simp only [file, List.getD_cons_succ, List.getD_cons_zero, List.mem_cons, List.not_mem_nil, or_false] at hn
      subst hn
      cases hj with
      | strong hm h =>
        simp only [List.mem_cons, List.not_mem_nil, or_false] at hm
        subst hm
        cases h
        omega
    | 2, hn =>
      simp only [file, List.getD_cons_succ, List.getD_cons_zero, List.mem_cons, List.not_mem_nil, or_false] at hn
      subst hn
      cases hj
    | i + 3, hn => simp [file] at hn
  have : ∀ i j, Reaches file i j → i < j := by
    intro i j h
    induction h with
    | one h => exact key _ _ h
    | more h _ ih => exact Nat.lt_trans (key _ _ h) ih
  intro i h
  exact absurd (this i i h) (Nat.lt_irrefl i)

/-- **C116.** The conversion of a file that includes itself behind some text never ends: however many turns there are, they are not
enough. -/
theorem self_include_runs_on (env : Env) (i : Nat) (t : Text) (rest : List Node)
    (h : env.file i = .text t :: .incl (some i) :: rest) : ∀ fuel, convert env fuel i = .error .deep := by
  have key : ∀ fuel w, reduceWith (eval env fuel) (env.file i) w = .error .deep := by
    intro fuel
    induction fuel with
    | zero => intro w; rw [h]; rfl
    | succ fuel ih =>
      intro w
      rw [h, reduceWith, andThen_ok (show eval env (fuel + 1) (.text t) w = .ok (.content t, w) from rfl)]
      have hs : step env (eval env fuel) (.incl (some i)) w = .error .deep := by
        rw [step]
        simp only [ih w]
      have hi : eval env (fuel + 1) (.incl (some i)) w = .error .deep := by
        rw [eval, andThen_error hs]
      rw [andThen_error]
      rw [reduceWith, andThen_error hi]
  intro fuel
  rw [convert, key]

/-- **C116.** What an included file is converted to is put in its place, and the definitions in it are not kept for what comes after
it. -/
theorem include_in_place (env : Env) (fuel i : Nat) (w w' : Worker) (t : Text)
    (h : reduceWith (eval env fuel) (env.file i) w = .ok (t, w')) :
    ∃ w2, eval env (fuel + 1) (.incl (some i)) w = .ok (.content t, w2) ∧ w2.prepend = w.prepend ∧ w2.depth = w.depth := by
  refine ⟨{ w with writes := w'.writes }, ?_, rfl, rfl⟩
  have hs : step env (eval env fuel) (.incl (some i)) w = .ok (.content t, { w with writes := w'.writes }) := by
    rw [step]
    simp only [h]
  rw [eval, andThen_ok hs]
  rfl

end Tinymist.Typlite
