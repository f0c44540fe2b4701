import Verif.Props.Packages
/-! C78, continued: what is in the cache stays there, whole or not. -/
namespace Tinymist.Packages
variable {B : Type}

/-- What can come of one step: the call at `i` goes on and something about the cache, the requests or the returns changes. -/
theorem run_ind {J : St B → Prop} (hJ : ∀ s op, J s → J (step s op)) (s : St B) (ops : List (Op B)) (h : J s) : J (run s ops) := by
  induction ops generalizing s with
  | nil => exact h
  | cons op ops ih => exact ih _ (hJ s op h)

theorem quiet_set {s : St B} {k : Text} (h : Quiet s k) {i : Nat} {spec : Spec} {p : Phase B} (hp : subdir spec = k → ¬ p.Busy) :
    ∀ c ∈ s.calls.set i (spec, p), subdir c.1 = k → ¬ c.2.Busy := by
  intro c hc hk
  rcases List.mem_or_eq_of_mem_set hc with hc | hc
  · exact h c hc hk
  · rw [hc] at hk ⊢; exact hp hk

/-- A package in the cache that nobody is downloading. -/
structure Kept (k : Text) (d : Dir B) (requests : List Spec) (n : Nat) (s : St B) : Prop where
  cache : s.cache k = some d
  quiet : Quiet s k
  requests : s.requests.filter (fun r => subdir r = k) = requests
  len : n ≤ s.returned.length
  ret : ∀ r ∈ s.returned.drop n, subdir r.spec = k → r.result = .data ∨ r.result = .cache ∧ r.seen = some d

theorem kept_set {k : Text} {d : Dir B} {rq : List Spec} {n : Nat} {s s' : St B} (h : Kept k d rq n s) {i : Nat} {spec : Spec} {p : Phase B}
    (hcalls : s'.calls = s.calls.set i (spec, p)) (hp : subdir spec = k → ¬ p.Busy) (hc : s'.cache k = s.cache k)
    (hq : s'.requests = s.requests ∨ s'.requests = s.requests ++ [spec] ∧ subdir spec ≠ k)
    (hr : s'.returned = s.returned ∨ ∃ r, s'.returned = s.returned ++ [r] ∧
      (subdir r.spec = k → r.result = .data ∨ r.result = .cache ∧ r.seen = some d)) : Kept k d rq n s' := by
  refine ⟨hc.trans h.cache, by unfold Quiet; rw [hcalls]; exact quiet_set h.quiet hp, ?_, ?_, ?_⟩
  · rcases hq with hq | ⟨hq, hne⟩
    · rw [hq]; exact h.requests
    · rw [hq, List.filter_append, h.requests]
      simp [hne]
  · rcases hr with hr | ⟨r, hr, -⟩
    · rw [hr]; exact h.len
    · rw [hr]; have := h.len; simp; omega
  · rcases hr with hr | ⟨r, hr, hok⟩
    · rw [hr]; exact h.ret
    · rw [hr, List.drop_append_of_le_length h.len]
      intro x hx
      rcases List.mem_append.mp hx with hx | hx
      · exact h.ret x hx
      · rw [List.mem_singleton] at hx; rw [hx]; exact hok

theorem kept_move {k : Text} {d : Dir B} {rq : List Spec} {n : Nat} {s : St B} (h : Kept k d rq n s) (i : Nat) (resp : Resp B) (fails : Bool) :
    Kept k d rq n (move s i resp fails) := by
  cases hi : s.calls[i]? with
  | none => simp only [move, hi]; exact h
  | some c =>
    obtain ⟨spec, p⟩ := c
    have hbusy : p.Busy → subdir spec ≠ k := fun hb hk => h.quiet _ (List.mem_of_getElem? hi) hk hb
    cases p with
    | data =>
      simp only [move, hi]
      cases hd : s.data (subdir spec) with
      | some d' => exact kept_set h rfl (fun _ hb => hb) rfl (Or.inl rfl) (Or.inr ⟨_, rfl, fun _ => Or.inl rfl⟩)
      | none => exact kept_set h rfl (fun _ hb => hb) rfl (Or.inl rfl) (Or.inl rfl)
    | cache =>
      simp only [move, hi]
      cases hd : s.cache (subdir spec) with
      | some d' =>
        refine kept_set h rfl (fun _ hb => hb) rfl (Or.inl rfl) (Or.inr ⟨_, rfl, fun hk => Or.inr ⟨rfl, ?_⟩⟩)
        simp only at hk
        rw [hk, h.cache] at hd
        exact hd.symm
      | none =>
        have hne : subdir spec ≠ k := by intro hk; rw [hk, h.cache] at hd; cases hd
        simp only
        split
        · exact kept_set h rfl (fun hk => absurd hk hne) rfl (Or.inl rfl) (Or.inl rfl)
        · exact kept_set h rfl (fun hk => absurd hk hne) rfl (Or.inl rfl) (Or.inr ⟨_, rfl, fun hk => absurd hk hne⟩)
    | request =>
      have hne := hbusy trivial
      simp only [move, hi]
      cases resp with
      | notFound => exact kept_set h rfl (fun hk => absurd hk hne) rfl (Or.inr ⟨rfl, hne⟩) (Or.inr ⟨_, rfl, fun hk => absurd hk hne⟩)
      | failed => exact kept_set h rfl (fun hk => absurd hk hne) rfl (Or.inr ⟨rfl, hne⟩) (Or.inr ⟨_, rfl, fun hk => absurd hk hne⟩)
      | archive files ok => exact kept_set h rfl (fun hk => absurd hk hne) rfl (Or.inr ⟨rfl, hne⟩) (Or.inl rfl)
    | create files ok =>
      have hne := hbusy trivial
      simp only [move, hi]
      split
      · exact kept_set h rfl (fun hk => absurd hk hne) rfl (Or.inl rfl) (Or.inl rfl)
      · split
        · exact kept_set h rfl (fun hk => absurd hk hne) rfl (Or.inl rfl) (Or.inl rfl)
        · exact kept_set h rfl (fun hk => absurd hk hne) (setCache_other hne.symm) (Or.inl rfl) (Or.inl rfl)
    | unpack files ok =>
      have hne := hbusy trivial
      cases files with
      | nil =>
        cases ok <;> simp only [move, hi] <;>
          exact kept_set h rfl (fun hk => absurd hk hne) rfl (Or.inl rfl) (Or.inl rfl)
      | cons f files =>
        simp only [move, hi]
        split
        · exact kept_set h rfl (fun hk => absurd hk hne) rfl (Or.inl rfl) (Or.inl rfl)
        · split
          · exact kept_set h rfl (fun hk => absurd hk hne) (setCache_other hne.symm) (Or.inl rfl) (Or.inl rfl)
          · exact kept_set h rfl (fun hk => absurd hk hne) rfl (Or.inl rfl) (Or.inl rfl)
    | remove =>
      have hne := hbusy trivial
      simp only [move, hi]
      split
      · exact kept_set h rfl (fun hk => absurd hk hne) rfl (Or.inl rfl) (Or.inr ⟨_, rfl, fun hk => absurd hk hne⟩)
      · exact kept_set h rfl (fun hk => absurd hk hne) (setCache_other hne.symm) (Or.inl rfl) (Or.inr ⟨_, rfl, fun hk => absurd hk hne⟩)
    | final =>
      have hne := hbusy trivial
      simp only [move, hi]
      split
      · exact kept_set h rfl (fun hk => absurd hk hne) rfl (Or.inl rfl) (Or.inr ⟨_, rfl, fun hk => absurd hk hne⟩)
      · exact kept_set h rfl (fun hk => absurd hk hne) rfl (Or.inl rfl) (Or.inr ⟨_, rfl, fun hk => absurd hk hne⟩)
    | ended r => simp only [move, hi]; exact h

theorem kept_step {k : Text} {d : Dir B} {rq : List Spec} {n : Nat} (s : St B) (op : Op B) (h : Kept k d rq n s) :
    Kept k d rq n (step s op) := by
  cases op with
  | move i resp fails => exact kept_move h i resp fails
  | install k d => exact ⟨h.cache, h.quiet, h.requests, h.len, h.ret⟩
  | crash => exact ⟨h.cache, fun c hc => by simp [step] at hc, h.requests, h.len, h.ret⟩
  | call spec =>
    refine ⟨h.cache, ?_, h.requests, h.len, h.ret⟩
    intro c hc hk hb
    rcases List.mem_append.mp hc with hc | hc
    · exact h.quiet c hc hk hb
    · rw [List.mem_singleton] at hc; rw [hc] at hb; exact hb

/-- C78: a package in the cache that nobody is downloading stays as it is in whatever happens next, with crashes, failures and any
interleaving. It is never requested again, and every call for it finds it there, or in the data directory. -/
theorem kept_for_ever (s : St B) (ops : List (Op B)) {k : Text} {d : Dir B} (hc : s.cache k = some d) (hq : Quiet s k) :
    (run s ops).cache k = some d ∧
    (run s ops).requests.filter (fun r => subdir r = k) = s.requests.filter (fun r => subdir r = k) ∧
    ∀ r ∈ (run s ops).returned.drop s.returned.length, subdir r.spec = k → r.result = .data ∨ r.result = .cache ∧ r.seen = some d := by
  have := run_ind (J := Kept k d (s.requests.filter (fun r => subdir r = k)) s.returned.length) kept_step s ops
    ⟨hc, hq, rfl, Nat.le_refl _, by simp⟩
  exact ⟨this.cache, this.requests, this.ret⟩

/-! Requests, and where a package is found -/

structure Known (s : St B) : Prop where
  calls : ∀ c ∈ s.calls, c.2.Busy → c.1.ns = previewNs
  requests : ∀ r ∈ s.requests, r.ns = previewNs
  ret : ∀ r ∈ s.returned, r.result = .data ∨ r.result = .cache → r.seen ≠ none

theorem known_set {s s' : St B} (h : Known s) {i : Nat} {spec : Spec} {p : Phase B} (hcalls : s'.calls = s.calls.set i (spec, p))
    (hp : p.Busy → spec.ns = previewNs) (hq : s'.requests = s.requests ∨ s'.requests = s.requests ++ [spec] ∧ spec.ns = previewNs)
    (hr : s'.returned = s.returned ∨ ∃ r, s'.returned = s.returned ++ [r] ∧ (r.result = .data ∨ r.result = .cache → r.seen ≠ none)) :
    Known s' := by
  refine ⟨?_, ?_, ?_⟩
  · rw [hcalls]
    intro c hc
    rcases List.mem_or_eq_of_mem_set hc with hc | hc
    · exact h.calls c hc
    · rw [hc]; exact hp
  · rcases hq with hq | ⟨hq, hns⟩
    · rw [hq]; exact h.requests
    · rw [hq]
      intro r hr
      rcases List.mem_append.mp hr with hr | hr
      · exact h.requests r hr
      · rw [List.mem_singleton] at hr; rw [hr]; exact hns
  · rcases hr with hr | ⟨r, hr, hok⟩
    · rw [hr]; exact h.ret
    · rw [hr]
      intro x hx
      rcases List.mem_append.mp hx with hx | hx
      · exact h.ret x hx
      · rw [List.mem_singleton] at hx; rw [hx]; exact hok

theorem known_move {s : St B} (h : Known s) (i : Nat) (resp : Resp B) (fails : Bool) : Known (move s i resp fails) := by
  cases hi : s.calls[i]? with
  | none => simp only [move, hi]; exact h
  | some c =>
    obtain ⟨spec, p⟩ := c
    have hbusy : p.Busy → spec.ns = previewNs := h.calls _ (List.mem_of_getElem? hi)
    cases p with
    | data =>
      simp only [move, hi]
      split
      · exact known_set h rfl (fun hb => hb.elim) (Or.inl rfl) (Or.inr ⟨_, rfl, fun _ => by simp⟩)
      · exact known_set h rfl (fun hb => hb.elim) (Or.inl rfl) (Or.inl rfl)
    | cache =>
      simp only [move, hi]
      split
      · exact known_set h rfl (fun hb => hb.elim) (Or.inl rfl) (Or.inr ⟨_, rfl, fun _ => by simp⟩)
      · split
        · exact known_set h rfl (fun _ => ‹_›) (Or.inl rfl) (Or.inl rfl)
        · exact known_set h rfl (fun hb => hb.elim) (Or.inl rfl) (Or.inr ⟨_, rfl, fun h => by simp at h⟩)
    | request =>
      have hns := hbusy trivial
      simp only [move, hi]
      cases resp with
      | notFound => exact known_set h rfl (fun hb => hb.elim) (Or.inr ⟨rfl, hns⟩) (Or.inr ⟨_, rfl, fun h => by simp at h⟩)
      | failed => exact known_set h rfl (fun hb => hb.elim) (Or.inr ⟨rfl, hns⟩) (Or.inr ⟨_, rfl, fun h => by simp at h⟩)
      | archive files ok => exact known_set h rfl (fun _ => hns) (Or.inr ⟨rfl, hns⟩) (Or.inl rfl)
    | create files ok =>
      have hns := hbusy trivial
      simp only [move, hi]
      split
      · exact known_set h rfl (fun _ => hns) (Or.inl rfl) (Or.inl rfl)
      · split <;> exact known_set h rfl (fun _ => hns) (Or.inl rfl) (Or.inl rfl)
    | unpack files ok =>
      have hns := hbusy trivial
      cases files with
      | nil => cases ok <;> simp only [move, hi] <;> exact known_set h rfl (fun _ => hns) (Or.inl rfl) (Or.inl rfl)
      | cons f files =>
        simp only [move, hi]
        split
        · exact known_set h rfl (fun _ => hns) (Or.inl rfl) (Or.inl rfl)
        · split <;> exact known_set h rfl (fun _ => hns) (Or.inl rfl) (Or.inl rfl)
    | remove =>
      simp only [move, hi]
      split <;> exact known_set h rfl (fun hb => hb.elim) (Or.inl rfl) (Or.inr ⟨_, rfl, fun h => by simp at h⟩)
    | final =>
      simp only [move, hi]
      split
      · exact known_set h rfl (fun hb => hb.elim) (Or.inl rfl) (Or.inr ⟨_, rfl, fun _ => by simp⟩)
      · exact known_set h rfl (fun hb => hb.elim) (Or.inl rfl) (Or.inr ⟨_, rfl, fun h => by simp at h⟩)
    | ended r => simp only [move, hi]; exact h

/-- C78: whatever happens, only packages of the preview namespace are requested from the network, and a directory that is returned
is there. -/
theorem preview_only_and_there (data cache : Text → Option (Dir B)) (ops : List (Op B)) :
    (∀ r ∈ (run (init data cache) ops).requests, r.ns = "preview".toList) ∧
    ∀ r ∈ (run (init data cache) ops).returned, r.result = .data ∨ r.result = .cache → r.seen ≠ none := by
  have := run_ind (J := Known) (fun s op h => ?_) (init data cache) ops ⟨by simp [init], by simp [init], by simp [init]⟩
  · exact ⟨this.requests, this.ret⟩
  · cases op with
    | move i resp fails => exact known_move h i resp fails
    | install k d => exact ⟨h.calls, h.requests, h.ret⟩
    | crash => exact ⟨fun c hc => by simp [step] at hc, h.requests, h.ret⟩
    | call spec =>
      refine ⟨fun c hc hb => ?_, h.requests, h.ret⟩
      rcases List.mem_append.mp hc with hc | hc
      · exact h.calls c hc hb
      · rw [List.mem_singleton] at hc; rw [hc] at hb; exact hb.elim

/-- A package in the data directory, with no call past it. -/
structure LocalOnly (k : Text) (d : Dir B) (s : St B) : Prop where
  data : s.data k = some d
  calls : ∀ c ∈ s.calls, subdir c.1 = k → c.2 = .data ∨ c.2 = .ended .data
  requests : ∀ r ∈ s.requests, subdir r ≠ k
  ret : ∀ r ∈ s.returned, subdir r.spec = k → r.result = .data ∧ r.seen = some d

theorem local_set {k : Text} {d : Dir B} {s s' : St B} (h : LocalOnly k d s) {i : Nat} {spec : Spec} {p : Phase B}
    (hcalls : s'.calls = s.calls.set i (spec, p)) (hdata : s'.data = s.data) (hp : subdir spec = k → p = .ended .data)
    (hq : s'.requests = s.requests ∨ s'.requests = s.requests ++ [spec] ∧ subdir spec ≠ k)
    (hr : s'.returned = s.returned ∨ ∃ r, s'.returned = s.returned ++ [r] ∧ (subdir r.spec = k → r.result = .data ∧ r.seen = some d)) :
    LocalOnly k d s' := by
  refine ⟨by rw [hdata]; exact h.data, ?_, ?_, ?_⟩
  · rw [hcalls]
    intro c hc
    rcases List.mem_or_eq_of_mem_set hc with hc | hc
    · exact h.calls c hc
    · rw [hc]; exact fun hk => Or.inr (hp hk)
  · rcases hq with hq | ⟨hq, hns⟩
    · rw [hq]; exact h.requests
    · rw [hq]
      intro r hr
      rcases List.mem_append.mp hr with hr | hr
      · exact h.requests r hr
      · rw [List.mem_singleton] at hr; rw [hr]; exact hns
  · rcases hr with hr | ⟨r, hr, hok⟩
    · rw [hr]; exact h.ret
    · rw [hr]
      intro x hx
      rcases List.mem_append.mp hx with hx | hx
      · exact h.ret x hx
      · rw [List.mem_singleton] at hx; rw [hx]; exact hok

theorem local_move {k : Text} {d : Dir B} {s : St B} (h : LocalOnly k d s) (i : Nat) (resp : Resp B) (fails : Bool) :
    LocalOnly k d (move s i resp fails) := by
  cases hi : s.calls[i]? with
  | none => simp only [move, hi]; exact h
  | some c =>
    obtain ⟨spec, p⟩ := c
    have hcall := h.calls _ (List.mem_of_getElem? hi)
    simp only at hcall
    cases p with
    | data =>
      simp only [move, hi]
      cases hd : s.data (subdir spec) with
      | some d' =>
        refine local_set h rfl rfl (fun _ => rfl) (Or.inl rfl) (Or.inr ⟨_, rfl, fun hk => ⟨rfl, ?_⟩⟩)
        simp only at hk
        rw [hk, h.data] at hd
        exact hd.symm
      | none =>
        refine local_set h rfl rfl (fun hk => ?_) (Or.inl rfl) (Or.inl rfl)
        rw [hk, h.data] at hd; cases hd
    | cache =>
      have hne : subdir spec ≠ k := fun hk => by rcases hcall hk with h | h <;> cases h
      simp only [move, hi]
      split
      · exact local_set h rfl rfl (fun hk => absurd hk hne) (Or.inl rfl) (Or.inr ⟨_, rfl, fun hk => absurd hk hne⟩)
      · split
        · exact local_set h rfl rfl (fun hk => absurd hk hne) (Or.inl rfl) (Or.inl rfl)
        · exact local_set h rfl rfl (fun hk => absurd hk hne) (Or.inl rfl) (Or.inr ⟨_, rfl, fun hk => absurd hk hne⟩)
    | request =>
      have hne : subdir spec ≠ k := fun hk => by rcases hcall hk with h | h <;> cases h
      simp only [move, hi]
      cases resp with
      | notFound => exact local_set h rfl rfl (fun hk => absurd hk hne) (Or.inr ⟨rfl, hne⟩) (Or.inr ⟨_, rfl, fun hk => absurd hk hne⟩)
      | failed => exact local_set h rfl rfl (fun hk => absurd hk hne) (Or.inr ⟨rfl, hne⟩) (Or.inr ⟨_, rfl, fun hk => absurd hk hne⟩)
      | archive files ok => exact local_set h rfl rfl (fun hk => absurd hk hne) (Or.inr ⟨rfl, hne⟩) (Or.inl rfl)
    | create files ok =>
      have hne : subdir spec ≠ k := fun hk => by rcases hcall hk with h | h <;> cases h
      simp only [move, hi]
      split
      · exact local_set h rfl rfl (fun hk => absurd hk hne) (Or.inl rfl) (Or.inl rfl)
      · split <;> exact local_set h rfl rfl (fun hk => absurd hk hne) (Or.inl rfl) (Or.inl rfl)
    | unpack files ok =>
      have hne : subdir spec ≠ k := fun hk => by rcases hcall hk with h | h <;> cases h
      cases files with
      | nil => cases ok <;> simp only [move, hi] <;> exact local_set h rfl rfl (fun hk => absurd hk hne) (Or.inl rfl) (Or.inl rfl)
      | cons f files =>
        simp only [move, hi]
        split
        · exact local_set h rfl rfl (fun hk => absurd hk hne) (Or.inl rfl) (Or.inl rfl)
        · split <;> exact local_set h rfl rfl (fun hk => absurd hk hne) (Or.inl rfl) (Or.inl rfl)
    | remove =>
      have hne : subdir spec ≠ k := fun hk => by rcases hcall hk with h | h <;> cases h
      simp only [move, hi]
      split <;> exact local_set h rfl rfl (fun hk => absurd hk hne) (Or.inl rfl) (Or.inr ⟨_, rfl, fun hk => absurd hk hne⟩)
    | final =>
      have hne : subdir spec ≠ k := fun hk => by rcases hcall hk with h | h <;> cases h
      simp only [move, hi]
      split <;> exact local_set h rfl rfl (fun hk => absurd hk hne) (Or.inl rfl) (Or.inr ⟨_, rfl, fun hk => absurd hk hne⟩)
    | ended r => simp only [move, hi]; exact h

/-- C78: a package in the data directory is taken from there, whatever the cache has, and never requested, as long as nobody
changes it there. -/
theorem local_first (data cache : Text → Option (Dir B)) (ops : List (Op B)) {k : Text} {d : Dir B} (hd : data k = some d)
    (hops : ∀ x, Op.install k x ∉ ops) :
    (∀ r ∈ (run (init data cache) ops).returned, subdir r.spec = k → r.result = .data ∧ r.seen = some d) ∧
    ∀ r ∈ (run (init data cache) ops).requests, subdir r ≠ k := by
  have key : ∀ (ops : List (Op B)) (s : St B), (∀ x, Op.install k x ∉ ops) → LocalOnly k d s → LocalOnly k d (run s ops) := by
    intro ops
    induction ops with
    | nil => intro s _ h; exact h
    | cons op ops ih =>
      intro s hop h
      refine ih _ (fun x hx => hop x (List.mem_cons_of_mem _ hx)) ?_
      cases op with
      | move i resp fails => exact local_move h i resp fails
      | install k' d' =>
        have hk : k ≠ k' := fun hk => hop d' (by rw [hk]; exact List.mem_cons_self)
        exact ⟨by simp only [step, hk, if_false]; exact h.data, h.calls, h.requests, h.ret⟩
      | crash => exact ⟨h.data, fun c hc => by simp [step] at hc, h.requests, h.ret⟩
      | call spec =>
        refine ⟨h.data, fun c hc hk => ?_, h.requests, h.ret⟩
        rcases List.mem_append.mp hc with hc | hc
        · exact h.calls c hc hk
        · rw [List.mem_singleton] at hc; rw [hc]; exact Or.inl rfl
  have := key ops (init data cache) hops ⟨hd, by simp [init], by simp [init], by simp [init]⟩
  exact ⟨this.ret, this.requests⟩

/-! What a user would not expect -/

def cetz : Spec := ⟨"preview".toList, "cetz".toList, ⟨0, 3, 1⟩⟩
def files : List (Text × Nat) := [("typst.toml".toList, 1), ("lib.typ".toList, 2)]
def go (i : Nat) : Op Nat := .move i (.archive files true) false
def none' : Text → Option (Dir Nat) := fun _ => none
def has (d : Option (Dir Nat)) (f : Text) : Option Nat := d.bind fun d => d f

/-- What was returned, with the two files of the package. -/
def shown (s : St Nat) : List (Spec × Result × Option Nat × Option Nat) :=
  s.returned.map fun r => (r.spec, r.result, has r.seen "typst.toml".toList, has r.seen "lib.typ".toList)

/-- C78: a call that looks while another unpacks is given a package that lacks a file. -/
theorem half_while_unpacking :
    shown (run (init none' none') [.call cetz, .call cetz, go 0, go 0, go 0, go 0, go 0, go 1, go 1]) = [(cetz, .cache, some 1, none)] := by
  decide +kernel

/-- The server is killed when the first file is unpacked. -/
def killed : St Nat := run (init none' none') [.call cetz, go 0, go 0, go 0, go 0, go 0, .crash]

/-- C78: if the server is killed while it unpacks, then whatever happens later, every call for the package is given a directory
without that file, or one from the data directory, and it is never downloaded again. -/
theorem half_for_ever (ops : List (Op Nat)) :
    (∀ r ∈ (run killed ops).returned, r.spec = cetz → r.result ≠ .data →
      r.result = .cache ∧ has r.seen "typst.toml".toList = some 1 ∧ has r.seen "lib.typ".toList = none) ∧
    (run killed ops).requests.filter (fun r => subdir r = subdir cetz) = [cetz] := by
  have hq : Quiet killed (subdir cetz) := fun c hc => by
    have : killed.calls = [] := rfl
    rw [this] at hc; cases hc
  have hsome : ∃ d, killed.cache (subdir cetz) = some d ∧ d "typst.toml".toList = some 1 ∧ d "lib.typ".toList = none := by
    have : (has (killed.cache (subdir cetz)) "typst.toml".toList = some 1 ∧ has (killed.cache (subdir cetz)) "lib.typ".toList = none) := by
      decide +kernel
    cases h : killed.cache (subdir cetz) with
    | none => rw [h] at this; exact absurd this.1 (by simp [has])
    | some d => rw [h] at this; exact ⟨d, rfl, this⟩
  obtain ⟨d, hd, hd1, hd2⟩ := hsome
  obtain ⟨-, h2, h3⟩ := kept_for_ever killed ops hd hq
  refine ⟨fun r hr hs hnd => ?_, h2.trans (by decide +kernel)⟩
  have h0 : killed.returned.length = 0 := by decide +kernel
  rw [h0, List.drop_zero] at h3
  rcases h3 r hr (by rw [hs]) with h | ⟨h, hseen⟩
  · exact absurd h hnd
  · exact ⟨h, by rw [hseen]; exact hd1, by rw [hseen]; exact hd2⟩

/-- C78: two calls download the same package; the first is given it, then the second fails and removes it. -/
theorem removed_by_other :
    let s := run (init none' none')
      [.call cetz, .call cetz, go 0, go 0, go 1, go 1, go 0, go 0, go 0, go 0, go 0, go 0, go 1, .move 1 .failed true, .move 1 .failed false]
    shown s = [(cetz, .cache, some 1, some 2), (cetz, .malformed, none, none)] ∧ (s.cache (subdir cetz)).isNone = true := by
  decide +kernel

/-! The hypotheses can be met -/

/-- Two calls one after the other, then the server is killed. -/
def calm : List (Op Nat) := [.call cetz, go 0, go 0, go 0, go 0, go 0, go 0, go 0, go 0, .call cetz, go 1, go 1, .crash]

example : shown (run (init none' none') calm) = [(cetz, .cache, some 1, some 2), (cetz, .cache, some 1, some 2)] ∧
    (run (init none' none') calm).requests = [cetz] := by decide +kernel

def busyB : Phase B → Bool
  | .request | .create .. | .unpack .. | .remove | .final => true
  | _ => false
def writingB : Phase B → Bool
  | .unpack .. | .remove => true
  | _ => false

def allowedB (ok : Spec → List (Text × B) → Bool) (s : St B) : Op B → Bool
  | .crash => s.calls.all fun c => !writingB c.2
  | .move i resp fails =>
    match s.calls[i]? with
    | some (spec, .cache) => s.calls.all fun c => decide (subdir c.1 ≠ subdir spec) || !busyB c.2
    | some (_, .remove) => !fails
    | some (spec, .request) => match resp with | .archive f true => ok spec f | _ => true
    | _ => true
  | _ => true

def orderlyB (ok : Spec → List (Text × B) → Bool) : St B → List (Op B) → Bool
  | _, [] => true
  | s, op :: ops => allowedB ok s op && orderlyB ok (step s op) ops

theorem busyB_iff (p : Phase B) : busyB p = true ↔ p.Busy := by cases p <;> simp [busyB, Phase.Busy]
theorem writingB_iff (p : Phase B) : writingB p = true ↔ p.Writing := by cases p <;> simp [writingB, Phase.Writing]

theorem allowed_of {ok : Spec → List (Text × B) → Bool} {s : St B} {op : Op B} (h : allowedB ok s op = true) :
    Allowed (fun sp f => ok sp f = true) s op := by
  cases op with
  | call spec => trivial
  | install k d => trivial
  | crash =>
    intro c hc hw
    have := List.all_eq_true.mp h c hc
    rw [(writingB_iff _).mpr hw] at this
    cases this
  | move i resp fails =>
    intro spec p hi
    simp only [allowedB, hi] at h
    refine ⟨?_, ?_, ?_⟩
    · rintro rfl j spec' p' hj hk hb
      have := List.all_eq_true.mp h _ (List.mem_of_getElem? hj)
      simp [hk, (busyB_iff _).mpr hb] at this
    · rintro rfl
      simpa using h
    · rintro rfl f rfl
      exact h

theorem orderly_of {ok : Spec → List (Text × B) → Bool} (ops : List (Op B)) (s : St B) (h : orderlyB ok s ops = true) :
    Orderly (fun sp f => ok sp f = true) s ops := by
  induction ops generalizing s with
  | nil => trivial
  | cons op ops ih =>
    simp only [orderlyB, Bool.and_eq_true] at h
    exact ⟨allowed_of h.1, ih _ h.2⟩

example : Orderly (fun sp f => decide (sp = cetz ∧ f = files) = true) (init none' none') calm := orderly_of _ _ (by decide +kernel)
example : cetz.Plain := ⟨by decide +kernel, by decide +kernel⟩

end Tinymist.Packages
