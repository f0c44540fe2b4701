import Verif.Lemmas.Compute
/-!
# C29: computations of a snapshot run once
-/
namespace Tinymist.Compute
variable {K R : Type} [DecidableEq K]

/-- **C29**: however the threads are scheduled, all results of a computation that anybody computed, provided or saw in a
graph are the same. -/
theorem same_result {task : K → Prog K R} {clients : List (Prog K R)} {s : State K R} (h : Reachable task clients s)
    {e e' : Event K R} (he : e ∈ s.log) (he' : e' ∈ s.log) {k : K} {r r' : R} (hr : e.result = some (k, r))
    (hr' : e'.result = some (k, r')) : r = r' := by
  have hi := reachable_inv h
  have h1 := hi.same e he k r hr
  rw [hi.same e' he' k r' hr'] at h1
  injection h1 with h1
  exact h1.symm

/-- **C29**: a computation is completed or provided at most once; it is started again only after a panic, and never while
it runs or after it has completed. -/
theorem runs_once {task : K → Prog K R} {clients : List (Prog K R)} {s : State K R} (h : Reachable task clients s) (k : K) :
    ends s.log k + gifts s.log k ≤ 1 ∧ starts s.log k ≤ gaveUp s.log k + 1 := by
  have hi := reachable_inv h
  have h1 := hi.once k
  have h2 := hi.starts k
  have h3 : dones (s.cells k) ≤ 1 := by cases s.cells k <;> simp [dones]
  have h4 : dones (s.cells k) + runs (s.cells k) ≤ 1 := by cases s.cells k <;> simp [dones, runs]
  constructor <;> omega

/-! ## No deadlock -/

/-- The initialisers of a thread are ordered by rank, and each only asks for smaller ones. -/
def Ordered (rank : K → Nat) : List (K × Prog K R) → Prop
  | [] => True
  | [(k, p)] => Below rank (rank k) p
  | (k, p) :: (k', p') :: fs => Below rank (rank k) p ∧ rank k < rank k' ∧ Ordered rank ((k', p') :: fs)

theorem Ordered.tail {rank : K → Nat} {f : K × Prog K R} {fs : List (K × Prog K R)} (h : Ordered rank (f :: fs)) :
    Ordered rank fs := by
  cases fs with
  | nil => trivial
  | cons f' fs => exact h.2.2

theorem Ordered.head {rank : K → Nat} {k : K} {p : Prog K R} {fs : List (K × Prog K R)}
    (h : Ordered rank ((k, p) :: fs)) : Below rank (rank k) p := by
  cases fs with
  | nil => exact h
  | cons f' fs => exact h.1

theorem Ordered.replace {rank : K → Nat} {k : K} {p p' : Prog K R} {fs : List (K × Prog K R)}
    (h : Ordered rank ((k, p) :: fs)) (hp : Below rank (rank k) p') : Ordered rank ((k, p') :: fs) := by
  cases fs with
  | nil => exact hp
  | cons f' fs => exact ⟨hp, h.2⟩

theorem Ordered.le {rank : K → Nat} {k : K} {p : Prog K R} {fs : List (K × Prog K R)}
    (h : Ordered rank ((k, p) :: fs)) {k' : K} (hk : k' ∈ ((k, p) :: fs).map (·.1)) : rank k ≤ rank k' := by
  induction fs generalizing k p with
  | nil => simp at hk; rw [hk]; exact Nat.le_refl _
  | cons f fs ih =>
    obtain ⟨k2, p2⟩ := f
    rcases List.mem_cons.mp hk with rfl | hk
    · exact Nat.le_refl _
    · have := ih h.2.2 hk
      have := h.2.1
      omega

theorem act_below {rank : K → Nat} {n : Nat} {cells : K → Cell R} {p p' : Prog K R} (h : Below rank n p)
    {ev : List (Event K R)} (ha : act cells p = .go p' ev) : Below rank n p' := by
  cases p with
  | ret r => cases ha
  | panic => cases ha
  | compute k c =>
    rw [act] at ha
    split at ha
    · injection ha with ha _; rw [← ha]; exact h.2 _
    · cases ha
    · cases ha
  | get k c =>
    rw [act] at ha
    split at ha
    · injection ha with ha _; rw [← ha]; exact h _
    · injection ha with ha _; rw [← ha]; exact h _
  | provide k r c =>
    rw [act] at ha
    split at ha
    · injection ha with ha _; rw [← ha]; exact h.2 _
    · cases ha
    · cases ha

theorem ordered_setTop {rank : K → Nat} {t : Thread K R} {p p' : Prog K R} (h : Ordered rank t.frames)
    (hp : t.top = some p) (hb : ∀ n, Below rank n p → Below rank n p') : Ordered rank (t.setTop p').frames := by
  rw [Thread.setTop]
  rw [Thread.top] at hp
  cases hf : t.frames with
  | nil => trivial
  | cons f fs =>
    obtain ⟨k, q⟩ := f
    rw [hf] at h hp
    injection hp with hp
    subst hp
    exact h.replace (hb _ h.head)

theorem mem_set {α : Type} {l : List α} {i : Nat} {a b : α} (h : b ∈ l.set i a) : b = a ∨ b ∈ l := by
  rcases List.mem_or_eq_of_mem_set h with h | h
  · exact Or.inr h
  · exact Or.inl h

theorem reachable_ordered {task : K → Prog K R} {rank : K → Nat} (ht : ∀ k, Below rank (rank k) (task k))
    {clients : List (Prog K R)} {s : State K R} (h : Reachable task clients s) :
    ∀ t ∈ s.threads, Ordered rank t.frames := by
  induction h with
  | init =>
    intro t ht
    obtain ⟨p, _, rfl⟩ := List.mem_map.mp ht
    trivial
  | @step s s' i _ hs ih =>
    obtain ⟨t, hti, hst⟩ := step_cases hs
    have hto := ih t (List.mem_of_getElem? hti)
    intro u hu
    cases hst with
    | go p p' ev hp ha =>
      rcases mem_set hu with rfl | hu
      · exact ordered_setTop hto hp fun n hb => act_below hb ha
      · exact ih u hu
    | call p k hp ha =>
      rcases mem_set hu with rfl | hu
      · obtain ⟨_, c, rfl⟩ := act_call ha
        cases hf : t.frames with
        | nil => exact ht k
        | cons f fs =>
          obtain ⟨k', q⟩ := f
          rw [hf] at hto
          rw [Thread.top, hf] at hp
          injection hp with hp
          subst hp
          exact ⟨ht k, hto.head.1, hto⟩
      · exact ih u hu
    | set p p' k r hp ha =>
      rcases mem_set hu with rfl | hu
      · obtain ⟨_, c, rfl, rfl⟩ := act_set ha
        exact ordered_setTop hto hp fun n hb => hb.2 true
      · exact ih u hu
    | finish k r fs hf =>
      rcases mem_set hu with rfl | hu
      · rw [hf] at hto
        exact hto.tail
      · exact ih u hu
    | die hp =>
      rcases mem_set hu with rfl | hu
      · trivial
      · exact ih u hu

theorem step_of_act {task : K → Prog K R} {s : State K R} {i : Nat} {t : Thread K R} (hi : s.threads[i]? = some t)
    {p : Prog K R} (hp : t.top = some p) (hw : act s.cells p ≠ .wait) (he : t.frames ≠ [] ∨ ∀ r, p ≠ .ret r) :
    step task s i ≠ none := by
  rw [step, hi]
  simp only [hp]
  cases ha : act s.cells p with
  | go p' ev => simp
  | wait => exact (hw ha).elim
  | call k => simp
  | set k r p' => simp
  | die => simp
  | done r =>
    simp only [finish]
    have := act_done ha
    rcases he with he | he
    · cases hf : t.frames with
      | nil => exact (he hf).elim
      | cons f fs => simp
    · exact (he r this).elim

/-- **C29**, no deadlock: when computations do not depend on each other in circles, as long as a thread has something to
do, some thread can do something. -/
theorem no_deadlock {task : K → Prog K R} (hac : Acyclic task) {clients : List (Prog K R)} {s : State K R}
    (h : Reachable task clients s) {t : Thread K R} (ht : t ∈ s.threads) (hne : ¬ t.ended) :
    ∃ i, step task s i ≠ none := by
  obtain ⟨rank, hrank⟩ := hac
  have hord := reachable_ordered hrank h
  have hinv := reachable_inv h
  -- a running computation of the smallest rank
  have key : ∀ n k, rank k ≤ n → s.cells k = .running → ∃ i, step task s i ≠ none := by
    intro n
    induction n with
    | zero =>
      intro k hk hrun
      have hc := hinv.owned k
      rw [hrun] at hc
      have hmem : k ∈ owned s := List.count_pos_iff.mp (by rw [hc]; simp [runs])
      obtain ⟨u, hu, hku⟩ := List.mem_flatMap.mp hmem
      obtain ⟨i, hi⟩ := List.getElem?_of_mem hu
      cases hf : u.frames with
      | nil => rw [hf] at hku; cases hku
      | cons f fs =>
        obtain ⟨k1, p1⟩ := f
        have ho := hord u hu
        rw [hf] at ho hku
        have hle := ho.le hku
        refine ⟨i, step_of_act hi (p := p1) (by rw [Thread.top, hf]) ?_ (Or.inl (by rw [hf]; simp))⟩
        intro hw
        obtain ⟨k2, hrun2, hcase⟩ := act_wait hw
        have hlt : rank k2 < rank k1 := by
          rcases hcase with ⟨c, rfl⟩ | ⟨r, c, rfl⟩
          · exact ho.head.1
          · exact ho.head.1
        omega
    | succ n ih =>
      intro k hk hrun
      have hc := hinv.owned k
      rw [hrun] at hc
      have hmem : k ∈ owned s := List.count_pos_iff.mp (by rw [hc]; simp [runs])
      obtain ⟨u, hu, hku⟩ := List.mem_flatMap.mp hmem
      obtain ⟨i, hi⟩ := List.getElem?_of_mem hu
      cases hf : u.frames with
      | nil => rw [hf] at hku; cases hku
      | cons f fs =>
        obtain ⟨k1, p1⟩ := f
        have ho := hord u hu
        rw [hf] at ho hku
        have hle := ho.le hku
        by_cases hw : act s.cells p1 = .wait
        · obtain ⟨k2, hrun2, hcase⟩ := act_wait hw
          have hlt : rank k2 < rank k1 := by
            rcases hcase with ⟨c, rfl⟩ | ⟨r, c, rfl⟩
            · exact ho.head.1
            · exact ho.head.1
          exact ih k2 (by omega) hrun2
        · exact ⟨i, step_of_act hi (p := p1) (by rw [Thread.top, hf]) hw (Or.inl (by rw [hf]; simp))⟩
  obtain ⟨i, hi⟩ := List.getElem?_of_mem ht
  cases hf : t.frames with
  | cons f fs =>
    obtain ⟨k1, p1⟩ := f
    by_cases hw : act s.cells p1 = .wait
    · obtain ⟨k2, hrun2, _⟩ := act_wait hw
      exact key _ k2 (Nat.le_refl _) hrun2
    · exact ⟨i, step_of_act hi (p := p1) (by rw [Thread.top, hf]) hw (Or.inl (by rw [hf]; simp))⟩
  | nil =>
    cases hcl : t.client with
    | none => exact (hne ⟨hf, Or.inl hcl⟩).elim
    | some p =>
      by_cases hw : act s.cells p = .wait
      · obtain ⟨k2, hrun2, _⟩ := act_wait hw
        exact key _ k2 (Nat.le_refl _) hrun2
      · refine ⟨i, step_of_act hi (p := p) (by rw [Thread.top, hf]; exact hcl) hw (Or.inr ?_)⟩
        rintro r rfl
        exact hne ⟨hf, Or.inr ⟨r, hcl⟩⟩

/-- The compiler's computations do not depend on each other in circles. -/
theorem compiler_acyclic {Doc Diag : Type} (run : Bool → Warned Doc Diag) : Acyclic (task run) := by
  refine ⟨fun | .flag _ => 0 | .compilation _ => 1 | .document _ => 2 | .diagnostics => 2, ?_⟩
  intro k
  cases k with
  | flag h => trivial
  | compilation h => intro r; trivial
  | document h => exact ⟨Nat.lt_succ_self 1, fun r => trivial⟩
  | diagnostics =>
    refine ⟨by decide, fun r => ?_⟩
    cases r with
    | none => trivial
    | some p => exact ⟨by decide, fun r => trivial⟩

/-! ## What a compilation returns -/

/-- With the results `expected`, and when the computations in `D` are known to be done, the program returns `r` without
a panic; it only computes `k` when what `pre k` lists is done, and provides what is expected. -/
def Returns (expected : K → R) (pre : K → Option (List K)) (r : R) : List K → Prog K R → Prop
  | _, .ret r' => r' = r
  | D, .compute k cont => (∃ ps, pre k = some ps ∧ ∀ x ∈ ps, x ∈ D) ∧ Returns expected pre r (k :: D) (cont (expected k))
  | D, .get k cont => k ∈ D ∧ Returns expected pre r D (cont (some (expected k)))
  | D, .provide k v cont => v = expected k ∧ ∀ b, Returns expected pre r (k :: D) (cont b)
  | _, .panic => False

/-- Everything known to be done is. -/
def Known (expected : K → R) (cells : K → Cell R) (D : List K) : Prop := ∀ k ∈ D, cells k = .done (expected k)

/-- The program returns `r`, from what is known in these cells. -/
def OnTrack (expected : K → R) (pre : K → Option (List K)) (cells : K → Cell R) (r : R) (p : Prog K R) : Prop :=
  ∃ D, Known expected cells D ∧ Returns expected pre r D p

structure Track (expected : K → R) (pre : K → Option (List K)) (result : R) (s : State K R) : Prop where
  cells : ∀ k r, s.cells k = .done r → r = expected k
  frames : ∀ t ∈ s.threads, ∀ f ∈ t.frames, OnTrack expected pre s.cells (expected f.1) f.2
  clients : ∀ t ∈ s.threads, ∃ p, t.client = some p ∧ OnTrack expected pre s.cells result p

/-- What the top program should return. -/
def Thread.goal (expected : K → R) (result : R) (t : Thread K R) : R :=
  match t.frames with
  | [] => result
  | (k, _) :: _ => expected k

theorem track_top {expected : K → R} {pre : K → Option (List K)} {result : R} {s : State K R}
    (h : Track expected pre result s) {t : Thread K R} (ht : t ∈ s.threads) {p : Prog K R} (hp : t.top = some p) :
    OnTrack expected pre s.cells (t.goal expected result) p := by
  rw [Thread.top] at hp
  rw [Thread.goal]
  cases hf : t.frames with
  | nil =>
    rw [hf] at hp
    have hp : t.client = some p := hp
    obtain ⟨q, hq, ho⟩ := h.clients t ht
    rw [hp] at hq
    injection hq with hq
    rw [hq]; exact ho
  | cons f fs =>
    obtain ⟨k, q⟩ := f
    rw [hf] at hp
    injection hp with hp
    subst hp
    exact h.frames t ht (k, q) (by rw [hf]; simp)

theorem onTrack_mono {expected : K → R} {pre : K → Option (List K)} {cells cells' : K → Cell R} {r : R} {p : Prog K R}
    (hm : ∀ k r, cells k = .done r → cells' k = .done r) (h : OnTrack expected pre cells r p) :
    OnTrack expected pre cells' r p := by
  obtain ⟨D, h1, h2⟩ := h
  exact ⟨D, fun k hk => hm _ _ (h1 k hk), h2⟩

/-- The state after cells were filled and the top program of a thread moved on. -/
theorem track_setTop {expected : K → R} {pre : K → Option (List K)} {result : R} {s : State K R}
    (h : Track expected pre result s) {i : Nat} {t : Thread K R} (hi : s.threads[i]? = some t) {p p' : Prog K R}
    (_ : t.top = some p) {cells : K → Cell R} (hc : ∀ k r, cells k = .done r → r = expected k)
    (hm : ∀ k r, s.cells k = .done r → cells k = .done r)
    (hp' : OnTrack expected pre cells (t.goal expected result) p') (log : List (Event K R)) :
    Track expected pre result ⟨cells, s.threads.set i (t.setTop p'), log⟩ := by
  have ht := List.mem_of_getElem? hi
  have hfr : ∀ u ∈ s.threads, ∀ f ∈ u.frames, OnTrack expected pre cells (expected f.1) f.2 :=
    fun u hu f hf => onTrack_mono hm (h.frames u hu f hf)
  have hcl : ∀ u ∈ s.threads, ∃ p, u.client = some p ∧ OnTrack expected pre cells result p := by
    intro u hu
    obtain ⟨q, hq, ho⟩ := h.clients u hu
    exact ⟨q, hq, onTrack_mono hm ho⟩
  refine ⟨hc, ?_, ?_⟩
  · intro u hu f hf
    rcases mem_set hu with rfl | hu
    · rw [Thread.setTop] at hf
      rw [Thread.goal] at hp'
      cases hft : t.frames with
      | nil => rw [hft] at hf; cases hf
      | cons g gs =>
        obtain ⟨k, q⟩ := g
        rw [hft] at hf hp'
        rcases List.mem_cons.mp hf with rfl | hf
        · exact hp'
        · exact hfr t ht f (by rw [hft]; exact List.mem_cons_of_mem _ hf)
    · exact hfr u hu f hf
  · intro u hu
    rcases mem_set hu with rfl | hu
    · rw [Thread.setTop]
      rw [Thread.goal] at hp'
      cases hft : t.frames with
      | nil => rw [hft] at hp'; exact ⟨p', rfl, hp'⟩
      | cons g gs => exact hcl t ht
    · exact hcl u hu

theorem track_step {task : K → Prog K R} {expected : K → R} {pre : K → Option (List K)} {result : R} {s s' : State K R}
    {i : Nat} (htask : ∀ k ps, pre k = some ps → Returns expected pre (expected k) ps (task k))
    (hinv : Inv s) (h : Track expected pre result s) (hs : step task s i = some s') : Track expected pre result s' := by
  obtain ⟨t, hi, hst⟩ := step_cases hs
  have ht := List.mem_of_getElem? hi
  cases hst with
  | go p p' ev hp ha =>
    refine track_setTop h hi hp h.cells (fun _ _ h => h) ?_ _
    obtain ⟨D, h1, h2⟩ := track_top h ht hp
    cases p with
    | ret r => cases ha
    | panic => cases ha
    | compute k c =>
      rw [act] at ha
      cases hc : s.cells k with
      | done r =>
        rw [hc] at ha
        injection ha with ha _
        have := h.cells k r hc
        subst this
        rw [← ha]
        refine ⟨k :: D, ?_, h2.2⟩
        intro x hx
        rcases List.mem_cons.mp hx with rfl | hx
        · exact hc
        · exact h1 x hx
      | running => rw [hc] at ha; cases ha
      | empty => rw [hc] at ha; cases ha
    | get k c =>
      obtain ⟨hk, h2⟩ := h2
      rw [act, h1 k hk] at ha
      injection ha with ha _
      rw [← ha]
      exact ⟨D, h1, h2⟩
    | provide k r c =>
      rw [act] at ha
      cases hc : s.cells k with
      | done r =>
        rw [hc] at ha
        injection ha with ha _
        have := h.cells k r hc
        subst this
        rw [← ha]
        refine ⟨k :: D, ?_, h2.2 _⟩
        intro x hx
        rcases List.mem_cons.mp hx with rfl | hx
        · exact hc
        · exact h1 x hx
      | running => rw [hc] at ha; cases ha
      | empty => rw [hc] at ha; cases ha
  | call p k hp ha =>
    obtain ⟨hem, c, rfl⟩ := act_call ha
    obtain ⟨D, h1, ⟨ps, hps, hsub⟩, h2⟩ := track_top h ht hp
    have hm : ∀ x r, s.cells x = .done r → setCell s.cells k .running x = .done r := by
      intro x r hx
      rw [setCell_ne _ _ (by rintro rfl; rw [hem] at hx; cases hx), hx]
    have hfr : ∀ u ∈ s.threads, ∀ f ∈ u.frames, OnTrack expected pre (setCell s.cells k .running) (expected f.1) f.2 :=
      fun u hu f hf => onTrack_mono hm (h.frames u hu f hf)
    refine ⟨?_, ?_, ?_⟩
    · intro x r hx
      have hx : setCell s.cells k .running x = .done r := hx
      by_cases hxk : x = k
      · subst hxk; rw [setCell_same] at hx; cases hx
      · rw [setCell_ne _ _ hxk] at hx; exact h.cells x r hx
    · intro u hu f hf
      rcases mem_set hu with rfl | hu
      · rcases List.mem_cons.mp hf with rfl | hf
        · exact ⟨ps, fun x hx => hm _ _ (h1 x (hsub x hx)), htask k ps hps⟩
        · exact hfr t ht f hf
      · exact hfr u hu f hf
    · intro u hu
      have : ∀ u ∈ s.threads, ∃ p, u.client = some p ∧ OnTrack expected pre (setCell s.cells k .running) result p := by
        intro u hu
        obtain ⟨q, hq, ho⟩ := h.clients u hu
        exact ⟨q, hq, onTrack_mono hm ho⟩
      rcases mem_set hu with rfl | hu
      · exact this t ht
      · exact this u hu
  | set p p' k r hp ha =>
    obtain ⟨hem, c, rfl, rfl⟩ := act_set ha
    obtain ⟨D, h1, rfl, h2⟩ := track_top h ht hp
    have hm : ∀ x r, s.cells x = .done r → setCell s.cells k (.done (expected k)) x = .done r := by
      intro x r hx
      rw [setCell_ne _ _ (by rintro rfl; rw [hem] at hx; cases hx), hx]
    refine track_setTop h hi hp ?_ hm ?_ _
    · intro x r hx
      by_cases hxk : x = k
      · subst hxk; rw [setCell_same] at hx; injection hx with hx; exact hx.symm
      · rw [setCell_ne _ _ hxk] at hx; exact h.cells x r hx
    · refine ⟨k :: D, ?_, h2 true⟩
      intro x hx
      rcases List.mem_cons.mp hx with rfl | hx
      · exact setCell_same _ _ _
      · exact hm _ _ (h1 x hx)
  | finish k r fs hf =>
    have hrun : s.cells k = .running := by
      have e1 := hinv.owned k
      have : 0 < (owned s).count k := by
        rw [List.count_pos_iff]
        exact List.mem_flatMap.mpr ⟨t, ht, by rw [hf]; simp⟩
      cases hc : s.cells k with
      | running => rfl
      | empty => rw [hc] at e1; simp only [runs] at e1; omega
      | done r => rw [hc] at e1; simp only [runs] at e1; omega
    obtain ⟨D, _, he⟩ := h.frames t ht (k, .ret r) (by rw [hf]; simp)
    have he : r = expected k := he
    subst he
    have hm : ∀ x r, s.cells x = .done r → setCell s.cells k (.done (expected k)) x = .done r := by
      intro x r hx
      rw [setCell_ne _ _ (by rintro rfl; rw [hrun] at hx; cases hx), hx]
    have hfr : ∀ u ∈ s.threads, ∀ f ∈ u.frames,
        OnTrack expected pre (setCell s.cells k (.done (expected k))) (expected f.1) f.2 :=
      fun u hu f hf => onTrack_mono hm (h.frames u hu f hf)
    have hcl : ∀ u ∈ s.threads, ∃ p, u.client = some p ∧
        OnTrack expected pre (setCell s.cells k (.done (expected k))) result p := by
      intro u hu
      obtain ⟨q, hq, ho⟩ := h.clients u hu
      exact ⟨q, hq, onTrack_mono hm ho⟩
    refine ⟨?_, ?_, ?_⟩
    · intro x r hx
      by_cases hxk : x = k
      · subst hxk
        have hx : setCell s.cells x (.done (expected x)) x = .done r := hx
        rw [setCell_same] at hx; injection hx with hx; exact hx.symm
      · have hx : setCell s.cells k (.done (expected k)) x = .done r := hx
        rw [setCell_ne _ _ hxk] at hx; exact h.cells x r hx
    · intro u hu f hf'
      rcases mem_set hu with rfl | hu
      · exact hfr t ht f (by rw [hf]; exact List.mem_cons_of_mem _ hf')
      · exact hfr u hu f hf'
    · intro u hu
      rcases mem_set hu with rfl | hu
      · exact hcl t ht
      · exact hcl u hu
  | die hp =>
    obtain ⟨D, _, hd⟩ := track_top h ht hp
    exact hd.elim

theorem reachable_track {task : K → Prog K R} {expected : K → R} {pre : K → Option (List K)} {result : R}
    (htask : ∀ k ps, pre k = some ps → Returns expected pre (expected k) ps (task k)) {clients : List (Prog K R)}
    (hcl : ∀ p ∈ clients, Returns expected pre result [] p) {s : State K R} (h : Reachable task clients s) :
    Track expected pre result s := by
  induction h with
  | init =>
    refine ⟨fun k r h => (by cases h), ?_, ?_⟩
    · intro t ht f hf
      obtain ⟨p, _, rfl⟩ := List.mem_map.mp ht
      cases hf
    · intro t ht
      obtain ⟨p, hp, rfl⟩ := List.mem_map.mp ht
      exact ⟨p, rfl, [], fun k hk => (by cases hk), hcl p hp⟩
  | step hr hs ih => exact track_step htask (reachable_inv hr) ih hs

/-- The result of each computation, when the html or the paged document is wanted. -/
def expectedOf {Doc Diag : Type} (run : Bool → Warned Doc Diag) (isHtml : Bool) : Key → Res Doc Diag
  | .flag html => some (.flag (html == isHtml))
  | .compilation html => some (.compiled (if html == isHtml then some (run html) else none))
  | .document html => some (.document (if html == isHtml then (run html).output.toOption else none))
  | .diagnostics => some (.diags (if isHtml then none else some (run false)) (if isHtml then some (run true) else none))

/-- **C29**, what a compilation returns: however many threads compile the snapshot, and however they are scheduled, none
panics, and each that returns, returns the document of typst's one run and its errors followed by its warnings. -/
theorem compilation_result {Doc Diag : Type} (run : Bool → Warned Doc Diag) (isHtml : Bool) (n : Nat)
    {s : State Key (Res Doc Diag)} (h : Reachable (task run) (List.replicate n (fromGraph isHtml)) s) :
    (∀ t ∈ s.threads, t.client ≠ none) ∧
    ∀ t ∈ s.threads, ∀ r, t.client = some (.ret r) →
      r = some (.artifact (run isHtml).output.toOption ((run isHtml).diagnostics)) := by
  have htrack := reachable_track (expected := expectedOf run isHtml)
    (pre := fun | .flag _ => none | .compilation html => some [.flag html]
                | .document html => some [.flag html] | .diagnostics => some [.flag false, .flag true])
    (result := some (.artifact (run isHtml).output.toOption ((run isHtml).diagnostics))) ?_ ?_ h
  · refine ⟨?_, ?_⟩
    · intro t ht e
      obtain ⟨p, hp, _⟩ := htrack.clients t ht
      rw [e] at hp; cases hp
    · intro t ht r e
      obtain ⟨p, hp, D, _, hr⟩ := htrack.clients t ht
      rw [e] at hp
      injection hp with hp
      subst hp
      exact hr
  · intro k ps hk
    cases k with
    | flag html => cases hk
    | compilation html =>
      injection hk with hk
      subst hk
      exact ⟨by simp, rfl⟩
    | document html =>
      injection hk with hk
      subst hk
      refine ⟨⟨_, rfl, by simp⟩, ?_⟩
      simp only [Returns, expectedOf, documentOf]
      split <;> rfl
    | diagnostics =>
      injection hk with hk
      subst hk
      refine ⟨⟨_, rfl, by simp⟩, ⟨_, rfl, by simp⟩, ?_⟩
      simp only [Returns, expectedOf, diagsOf]
      cases isHtml <;> rfl
  · intro p hp
    rw [List.eq_of_mem_replicate hp]
    refine ⟨?_, fun b => ⟨?_, fun b' => ⟨⟨_, rfl, by simp⟩, ?_⟩⟩⟩
    · cases isHtml <;> rfl
    · cases isHtml <;> rfl
    · refine ⟨⟨_, rfl, by simp⟩, ?_⟩
      cases isHtml <;> simp [Returns, expectedOf, artifactOf, diagList]

/-- Run threads in this order; a thread that waits is passed over. -/
def schedule {K R : Type} [DecidableEq K] (task : K → Prog K R) (s : State K R) (is : List Nat) : State K R :=
  is.foldl (fun s i => (step task s i).getD s) s

theorem schedule_reachable {task : K → Prog K R} {clients : List (Prog K R)} (is : List Nat) {s : State K R}
    (h : Reachable task clients s) : Reachable task clients (schedule task s is) := by
  induction is generalizing s with
  | nil => exact h
  | cons i is ih =>
    refine ih ?_
    show Reachable task clients ((step task s i).getD s)
    cases hs : step task s i with
    | none => exact h
    | some s' => exact .step h hs

/-- Three threads, taking turns, all get the document of the one run. -/
example :
    let run : Bool → Warned Nat Nat := fun html => if html then ⟨.error [9], []⟩ else ⟨.ok 5, [7]⟩
    let s := schedule (task run) (State.init (List.replicate 3 (fromGraph false)))
      ((List.replicate 30 [0, 1, 2]).flatten)
    starts s.log (.compilation false) = 1 ∧
      s.threads.all (fun t => match t.frames, t.client with
        | [], some (.ret (some (.artifact (some 5) [7]))) => true
        | _, _ => false) = true := by decide +kernel

/-! ## Copies -/

/-- **C29** is about one graph: a copy made before a computation was asked for does not share it, and runs it again. -/
theorem copy_runs_again :
    let s := ((Graphs.mk [[]] [] [] : Graphs Nat Nat).snapshot 0).compute 0 7 1
    (s.1.compute 1 7 2).1.runs = [7, 7] ∧ (s.1.compute 1 7 2).2 ≠ s.2 := by decide

/-- A copy shares what was computed before it was made. -/
theorem copy_shares (s : Graphs K R) (g : Nat) (hg : g < s.graphs.length) (k : K) (r r' : R)
    (hc : ∀ g' : Nat, ∀ e : K × Nat, e ∈ s.graphs[g']?.getD [] → e.2 < s.cells.length) :
    let t := s.compute g k r
    ((t.1.snapshot g).compute t.1.graphs.length k r').2 = t.2 ∧
      ((t.1.snapshot g).compute t.1.graphs.length k r').1.runs = t.1.runs := by
  have key : ∀ (u : Graphs K R) (c : Nat) (v : R), (u.graphs[g]?.getD []).find? (·.1 = k) = some (k, c) →
      u.cells[c]?.join = some v → ((u.snapshot g).compute u.graphs.length k r').2 = v ∧
        ((u.snapshot g).compute u.graphs.length k r').1.runs = u.runs := by
    intro u c v h1 h2
    have h3 : (u.snapshot g).cell u.graphs.length k = (u.snapshot g, c) := by
      rw [Graphs.cell]
      have : ((u.snapshot g).graphs[u.graphs.length]?).getD [] = u.graphs[g]?.getD [] := by
        simp [Graphs.snapshot]
      rw [this, h1]
    rw [Graphs.compute, h3, Graphs.fill]
    have : (u.snapshot g).cells = u.cells := rfl
    simp only [this, h2]
    exact ⟨trivial, rfl⟩
  intro t
  have hcell : ∃ c, ((s.cell g k).1.graphs[g]?.getD []).find? (·.1 = k) = some (k, c) ∧ (s.cell g k).2 = c ∧
      c < (s.cell g k).1.cells.length := by
    rw [Graphs.cell]
    cases hf : (s.graphs[g]?.getD []).find? (·.1 = k) with
    | some e =>
      have he : e.1 = k := by simpa using List.find?_some hf
      refine ⟨e.2, ?_, rfl, hc g e (List.mem_of_find?_eq_some hf)⟩
      rw [hf, ← he]
    | none =>
      refine ⟨s.cells.length, ?_, rfl, by simp⟩
      simp [hg]
  obtain ⟨c, h1, h2, h3⟩ := hcell
  refine key t.1 c t.2 ?_ ?_
  · show (((s.cell g k).1.fill (s.cell g k).2 k r).1.graphs[g]?.getD []).find? _ = _
    rw [Graphs.fill]
    split <;> exact h1
  · show ((s.cell g k).1.fill (s.cell g k).2 k r).1.cells[c]?.join = some ((s.cell g k).1.fill (s.cell g k).2 k r).2
    rw [h2, Graphs.fill]
    cases hx : (s.cell g k).1.cells[c]?.join with
    | some v => simp only [hx]
    | none => simp [h3]

/-! ## Providing a result, and what a compilation shows -/

/-- **C29**: who provides a result is told whether it was taken: it is if there was none, and then it is the result; else
nothing changes. -/
theorem provider_told {task : K → Prog K R} {s s' : State K R} {i : Nat} {t : Thread K R} (ht : s.threads[i]? = some t)
    {k : K} {r : R} {cont : Bool → Prog K R} (hp : t.top = some (.provide k r cont)) (hs : step task s i = some s') :
    (s.cells k = .empty ∧ s'.cells k = .done r ∧ s'.log = s.log ++ [.provided k r] ∧
        s'.threads = s.threads.set i (t.setTop (cont true))) ∨
    (∃ r', s.cells k = .done r' ∧ s'.cells = s.cells ∧ s'.log = s.log ∧
        s'.threads = s.threads.set i (t.setTop (cont false))) := by
  unfold step at hs
  simp only [ht, hp, act] at hs
  cases hc : s.cells k with
  | empty =>
    rw [hc] at hs
    simp only [Option.some.injEq] at hs
    subst hs
    exact .inl ⟨rfl, by simp [setCell], rfl, rfl⟩
  | running => rw [hc] at hs; cases hs
  | done r' =>
    rw [hc] at hs
    simp only [Option.some.injEq] at hs
    subst hs
    exact .inr ⟨r', rfl, rfl, by simp, rfl⟩

/-- **C29**: without a main file the one error is that there is none; else the document, the errors and the warnings are the
compiler's, but that the warning that html is experimental is not shown for an html document if it is the only one. -/
theorem execute_shows {Doc Diag : Type} (hasMain html : Bool) (noMain : Diag) (aboutHtml : Diag → Bool) (c : Warned Doc Diag) :
    (hasMain = false → execute hasMain noMain aboutHtml html c = ⟨.error [noMain], []⟩) ∧
    (hasMain = true → (execute hasMain noMain aboutHtml html c).output = c.output ∧
      (∀ w, html = true → c.warnings = [w] → aboutHtml w = true → (execute hasMain noMain aboutHtml html c).warnings = []) ∧
      ((html = false ∨ ∀ w, c.warnings = [w] → aboutHtml w = false) →
        (execute hasMain noMain aboutHtml html c).warnings = c.warnings)) := by
  obtain ⟨o, ws⟩ := c
  unfold execute
  refine ⟨fun h => by simp [h], fun h => ?_⟩
  subst h
  cases html with
  | false => simp
  | true =>
    match ws with
    | [] => simp
    | [w] => cases hw : aboutHtml w <;> simp [hw]
    | _ :: _ :: _ => simp

end Tinymist.Compute
