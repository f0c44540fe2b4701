import Verif.Lemmas.VfsShared
/-! Whole histories of the file system. -/
namespace Tinymist.Vfs
variable {Path Fid V : Type} [DecidableEq Path] [DecidableEq Fid]
variable {resolve : Fid → Except V Path} {P : Path → V → Prop}

/-- The layers are those of a history of edits. -/
def Layers (am : Am Path Fid V) (es : List (Edit Path Fid V)) : Prop :=
  (∀ p, get am.byPath p = bufferAfter es p) ∧ (∀ f, get am.byId f = idBufferAfter es f) ∧
    ∀ p, get am.notified p = notifiedAfter es p

theorem layers_nil : Layers (⟨[], [], []⟩ : Am Path Fid V) [] := ⟨fun _ => rfl, fun _ => rfl, fun _ => rfl⟩

theorem layers_revising {w : World Path Fid V} {H : Handle Path Fid V} {es0 : List (Edit Path Fid V)}
    (h : Layers H.am es0) (es : List (Edit Path Fid V)) : Layers (revising w H es).am (es0 ++ es) :=
  edits_lookup es0 es (reviseStart w H) h

theorem layers_origin {am : Am Path Fid V} {es : List (Edit Path Fid V)} (h : Layers am es) (f : Fid) :
    origin resolve am f = originAfter resolve es f := by
  obtain ⟨h1, h2, h3⟩ := h
  unfold origin originAfter
  rw [h2]
  cases idBufferAfter es f with
  | some v => rfl
  | none =>
    simp only
    cases resolve f with
    | error e => rfl
    | ok p => simp only [h1, h3]

theorem editsOf_append (a b : List (LiveOp Path Fid V)) : editsOf (a ++ b) = editsOf a ++ editsOf b := by
  induction a with
  | nil => rfl
  | cons x a ih => cases x <;> simp [editsOf, ih]

/-- A single live file system keeps its invariant and its layers follow the history. -/
theorem live_run {w : World Path Fid V} {H : Handle Path Fid V} {es0 : List (Edit Path Fid V)}
    (h : LiveInv resolve P w H) (hl : Layers H.am es0) (ops : List (LiveOp Path Fid V))
    (hd : ∀ op ∈ ops.map LiveOp.toOp, op.Writes P) :
    ∃ H', LiveInv resolve P (run resolve w (ops.map LiveOp.toOp)) H' ∧ Layers H'.am (es0 ++ editsOf ops) := by
  induction ops generalizing w H es0 with
  | nil => exact ⟨H, h, by simpa [editsOf] using hl⟩
  | cons op ops ih =>
    have hd' : ∀ op ∈ ops.map LiveOp.toOp, op.Writes P := fun o ho => hd o (List.mem_cons_of_mem _ ho)
    have hd0 := hd op.toOp (List.mem_cons_self ..)
    cases op with
    | edit es =>
      obtain ⟨H', h', e⟩ := live_revise h es
      have := ih h' (es0 := es0 ++ es) (by rw [e]; exact layers_revising hl es) hd'
      simpa [editsOf, run, step, LiveOp.toOp] using this
    | read f => exact ih (live_read h f) hl hd'
    | evict t => exact ih (live_evict h t) hl hd'
    | disk p v =>
      refine ih (H := H) (w := { w with disk := set w.disk p v })
        ⟨h.handle, h.cell_lt, h.inj, h.bytes_lt, h.pm, h.good, ?_⟩ hl hd'
      intro q
      simp only [set]
      split
      · rename_i e; subst e; exact hd0
      · exact h.disk q

/-- After an edit about path `p` nothing read from that path earlier is left in the cache. -/
theorem live_refresh {w : World Path Fid V} {H : Handle Path Fid V} (h : LiveInv resolve P w H)
    (e : Edit Path Fid V) (p : Path) (hm : e.Mentions p) (Q : Path → V → Prop)
    (hq : ∀ q v, q ≠ p → Q q v) (hp : Q p (w.disk p)) :
    ∃ H', LiveInv resolve Q (revise w 0 [e]) H' ∧ H'.am = (revising w H [e]).am := by
  obtain ⟨H', h', ham⟩ := live_revise h [e]
  have hdisk : (revise w 0 [e]).disk = w.disk := by unfold revise; rw [h.handle]; simp only; split <;> rfl
  have hbytes : (revise w 0 [e]).bytes = w.bytes := by unfold revise; rw [h.handle]; simp only; split <;> rfl
  refine ⟨H', ⟨h'.handle, h'.cell_lt, h'.inj, h'.bytes_lt, h'.pm, ?_, ?_⟩, ham⟩
  · intro f x y hx hy
    obtain ⟨g1, g2⟩ := h'.good f x y hx hy
    refine ⟨?_, g2⟩
    -- the new store
    have hnew : ((revise w 0 [e]).stores H'.store).managed = (revising w H [e]).managed ∧
        ((revise w 0 [e]).stores H'.store).paths = (revising w H [e]).paths := by
      have h1 := h'.handle
      unfold revise at h1 ⊢
      rw [h.handle] at h1 ⊢
      simp only at h1 ⊢
      by_cases hc : (revising w H [e]).changed = true
      · rw [if_pos hc] at h1 ⊢
        simp only [set_eq] at h1
        injection h1 with h1
        subst h1
        simp only [set_eq]
        exact ⟨trivial, trivial⟩
      · rw [if_neg hc] at h1 ⊢
        simp only [set_eq] at h1
        injection h1 with h1
        subst h1
        have := edits_unchanged [e] (reviseStart w H) (by
          cases hcc : (revising w H [e]).changed with
          | true => exact absurd hcc hc
          | false => exact hcc)
        exact ⟨this.1.symm, this.2.symm⟩
    rw [hnew.1] at hx
    rw [hnew.2, ham] at g2
    rw [ham] at g1 ⊢
    rw [hbytes] at hy
    have hlt := h.bytes_lt _ _ hy
    cases ho : origin resolve (revising w H [e]).am f with
    | memory v => rw [ho] at g1; exact g1
    | disk q =>
      by_cases hqp : q = p
      · subst hqp
        exfalso
        have hres : resolve f = .ok q ∧ get (revising w H [e]).am.byId f = none := by
          unfold origin at ho
          cases hb : get (revising w H [e]).am.byId f with
          | some v => rw [hb] at ho; cases ho
          | none =>
            rw [hb] at ho
            simp only at ho
            cases hr : resolve f with
            | error v => rw [hr] at ho; cases ho
            | ok p' =>
              rw [hr] at ho
              simp only at ho
              cases h2 : get (revising w H [e]).am.byPath p' with
              | some v => rw [h2] at ho; cases ho
              | none =>
                rw [h2] at ho
                simp only at ho
                cases h3 : get (revising w H [e]).am.notified p' with
                | some v => rw [h3] at ho; cases ho
                | none => rw [h3] at ho; injection ho with ho; exact ⟨by rw [ho], rfl⟩
        have hin := (g2 q hres.1).resolve_left (fun h => h hres.2)
        have fresh : ∀ x, (revising w H [e]).managed f = some x → w.nextCell ≤ x.cell := by
          intro x hx
          by_cases hne : e = .resetCache
          · subst hne; cases hx
          · have t := (edit_touched (reviseStart w H) e hne).2
            have hpaths : (revising w H [e]).paths = (reviseStart w H).paths := t.paths
            rw [hpaths] at hin
            have ht : e.touches (reviseStart w H) f := by
              cases e with
              | mapShadow a v => have hm : a = q := hm; subst hm; exact hin
              | unmapShadow a => have hm : a = q := hm; subst hm; exact hin
              | notify a b =>
                refine ⟨q, ?_, hin⟩
                rcases hm with hm | hm
                · exact List.mem_append_left _ hm
                · exact List.mem_append_right _ hm
              | resetCache => exact absurd rfl hne
              | mapShadowById a v => exact hm.elim
              | removeShadowById a => exact hm.elim
              | resetShadow => exact hm.elim
            obtain ⟨c, t1, t2, t3⟩ := t.fresh f ht
            have t1 : (revising w H [e]).managed f = _ := t1
            rw [t1] at hx
            injection hx with hx
            subst hx
            exact t2
        have := fresh x hx
        omega
      · exact hq q _ hqp
  · intro q
    rw [hdisk]
    by_cases hqp : q = p
    · subst hqp; exact hp
    · exact hq q _ hqp

/-! ### Any schedule -/

/-- Identifiers in use are below the counters. -/
structure Wf (w : World Path Fid V) : Prop where
  h_lt : ∀ k H, w.handles k = some H → k < w.nextHandle
  s_lt : ∀ k H, w.handles k = some H → H.store < w.nextStore

theorem slot_rest (w : World Path Fid V) (s : Nat) (f : Fid) :
    (slot w s f).handles = w.handles ∧ (slot w s f).nextHandle = w.nextHandle ∧
    (slot w s f).nextStore = w.nextStore ∧ (slot w s f).bytes = w.bytes ∧
    (slot w s f).pending = w.pending ∧ (slot w s f).disk = w.disk := by
  unfold slot; split <;> exact ⟨rfl, rfl, rfl, rfl, rfl, rfl⟩

theorem slot_keeps {w : World Path Fid V} {s' : Nat} {g : Fid} {e : Entry} (s : Nat) (f : Fid)
    (h : (w.stores s').managed g = some e) : ((slot w s f).stores s').managed g = some e := by
  unfold slot
  split
  · exact h
  · rename_i hn
    by_cases hs : s' = s
    · subst hs
      simp only [set_eq]
      rw [set_ne]
      · exact h
      · rintro rfl; rw [hn] at h; cases h
    · simp only [set_ne _ _ hs]; exact h

theorem fill_keeps {w : World Path Fid V} (H : Handle Path Fid V) (f : Fid) (c : Nat) {c' : Nat} {x : Cell Path V}
    (h : w.bytes c' = some x) : (fill resolve w H f c).bytes c' = some x := by
  obtain ⟨b1, b2, -⟩ := fill_bytes (resolve := resolve) w H f c
  by_cases hc : c' = c
  · subst hc; exact b2 x h
  · rw [b1 c' hc]; exact h

/-- What one step does to the handles. -/
theorem step_handles (w : World Path Fid V) (op : Op Path Fid V) :
    (step resolve w op).handles = w.handles ∧ (step resolve w op).nextHandle = w.nextHandle ∧
      (step resolve w op).nextStore = w.nextStore ∨
    (∃ h H H', (op = .snapshot h ∧ H' = H ∧ (step resolve w op).nextStore = w.nextStore ∨
        op = .fork h ∧ H'.am = H.am ∧ H'.store = w.nextStore ∧ (step resolve w op).nextStore = w.nextStore + 1) ∧
      w.handles h = some H ∧
      (step resolve w op).handles = set w.handles w.nextHandle (some H') ∧
      (step resolve w op).nextHandle = w.nextHandle + 1) ∨
    (∃ h es H H', op = .revise h es ∧ w.handles h = some H ∧ H'.am = (revising w H es).am ∧
      (H'.store = w.nextStore ∧ (step resolve w op).nextStore = w.nextStore + 1 ∨
       H'.store = H.store ∧ (step resolve w op).nextStore = w.nextStore) ∧
      (step resolve w op).handles = set w.handles h (some H') ∧
      (step resolve w op).nextHandle = w.nextHandle) := by
  cases op with
  | snapshot h =>
    simp only [step, snapshot]
    cases hh : w.handles h with
    | none => exact Or.inl ⟨rfl, rfl, rfl⟩
    | some H => exact Or.inr (Or.inl ⟨h, H, H, Or.inl ⟨rfl, rfl, rfl⟩, hh, rfl, rfl⟩)
  | fork h =>
    simp only [step, fork]
    cases hh : w.handles h with
    | none => exact Or.inl ⟨rfl, rfl, rfl⟩
    | some H => exact Or.inr (Or.inl ⟨h, H, ⟨w.nextStore, 2, H.am⟩, Or.inr ⟨rfl, rfl, rfl, rfl⟩, hh, rfl, rfl⟩)
  | revise h es =>
    simp only [step, revise]
    cases hh : w.handles h with
    | none => exact Or.inl ⟨rfl, rfl, rfl⟩
    | some H =>
      simp only
      refine Or.inr (Or.inr ?_)
      by_cases hc : (revising w H es).changed = true
      · rw [if_pos hc]
        exact ⟨h, es, H, ⟨w.nextStore, (revising w H es).goal, (revising w H es).am⟩, rfl, hh, rfl, Or.inl ⟨rfl, rfl⟩,
          rfl, rfl⟩
      · rw [if_neg hc]
        exact ⟨h, es, H, { H with am := (revising w H es).am }, rfl, hh, rfl, Or.inr ⟨rfl, rfl⟩, rfl, rfl⟩
  | beginRead h f =>
    left
    simp only [step, beginRead]
    cases hh : w.handles h with
    | none => exact ⟨rfl, rfl, rfl⟩
    | some H =>
      simp only
      obtain ⟨s1, s2, s3, -⟩ := slot_rest w H.store f
      split <;> exact ⟨s1, s2, s3⟩
  | finishRead i =>
    left
    simp only [step, finishRead]
    split
    · exact ⟨rfl, rfl, rfl⟩
    · split
      · exact ⟨rfl, rfl, rfl⟩
      · rename_i h f c _ _ H _
        obtain ⟨s1, -, -, -, s2, s3⟩ := fill_rest (resolve := resolve) w H f c
        exact ⟨s1, s3, s2⟩
  | read h f =>
    left
    simp only [step, read]
    cases hh : w.handles h with
    | none => exact ⟨rfl, rfl, rfl⟩
    | some H =>
      simp only
      obtain ⟨s1, s2, s3, -⟩ := slot_rest w H.store f
      split
      · rename_i e _
        obtain ⟨t1, -, -, -, t2, t3⟩ := fill_rest (resolve := resolve) (slot w H.store f) H f e.cell
        exact ⟨t1.trans s1, t3.trans s2, t2.trans s3⟩
      · exact ⟨s1, s2, s3⟩
  | evict h t =>
    left
    simp only [step, evict]
    cases w.handles h <;> exact ⟨rfl, rfl, rfl⟩
  | disk p v => exact Or.inl ⟨rfl, rfl, rfl⟩

theorem wf_init (disk : Path → V) : Wf (init disk : World Path Fid V) := by
  constructor <;>
  · intro k H hk
    simp only [init, set] at hk ⊢
    split at hk
    · injection hk with hk; subst hk; simp_all
    · cases hk

theorem wf_step {w : World Path Fid V} (h : Wf w) (op : Op Path Fid V) : Wf (step resolve w op) := by
  rcases step_handles (resolve := resolve) w op with ⟨h1, h2, h3⟩ | ⟨a, H, H', h1, h2, h3, h4⟩ |
      ⟨a, es, H, H', -, h2, -, h3, h4, h5⟩
  · exact ⟨by rw [h1, h2]; exact h.h_lt, by rw [h1, h3]; exact h.s_lt⟩
  · refine ⟨?_, ?_⟩ <;> rw [h3] <;> intro k K hk <;> simp only [set] at hk <;> split at hk
    · rw [h4]; omega
    · rw [h4]; exact Nat.lt_succ_of_lt (h.h_lt k K hk)
    · injection hk with hk
      subst hk
      rcases h1 with ⟨-, e, h5⟩ | ⟨-, -, e, h5⟩
      · rw [e, h5]; exact h.s_lt _ _ h2
      · rw [e, h5]; omega
    · have := h.s_lt k K hk
      rcases h1 with ⟨-, e, h5⟩ | ⟨-, -, e, h5⟩ <;> omega
  · refine ⟨?_, ?_⟩ <;> rw [h4] <;> intro k K hk <;> simp only [set] at hk <;> split at hk
    · rename_i e; rw [h5, e]; exact h.h_lt _ _ h2
    · rw [h5]; exact h.h_lt k K hk
    · injection hk with hk
      subst hk
      have := h.s_lt _ _ h2
      rcases h3 with ⟨e, h6⟩ | ⟨e, h6⟩ <;> omega
    · have := h.s_lt k K hk
      rcases h3 with ⟨e, h6⟩ | ⟨e, h6⟩ <;> omega

theorem wf_run {w : World Path Fid V} (h : Wf w) (ops : List (Op Path Fid V)) : Wf (run resolve w ops) := by
  induction ops generalizing w with
  | nil => exact h
  | cons op ops ih => exact ih (wf_step h op)

/-- The handles of `w` carry the layers of the edit histories `s`. -/
def HistRel (s : Nat × (Nat → Option (List (Edit Path Fid V)))) (w : World Path Fid V) : Prop :=
  s.1 = w.nextHandle ∧ ∀ k, (s.2 k = none ↔ w.handles k = none) ∧
    ∀ es H, s.2 k = some es → w.handles k = some H → Layers H.am es

theorem histRel_same {s : Nat × (Nat → Option (List (Edit Path Fid V)))} {w w' : World Path Fid V}
    (h : HistRel s w) (h1 : w'.handles = w.handles) (h2 : w'.nextHandle = w.nextHandle) : HistRel s w' := by
  unfold HistRel; rw [h1, h2]; exact h

theorem histRel_step {s : Nat × (Nat → Option (List (Edit Path Fid V)))} {w : World Path Fid V}
    (h : HistRel s w) (op : Op Path Fid V) : HistRel (histStep s op) (step resolve w op) := by
  have keep : ∀ op : Op Path Fid V, histStep s op = s →
      (step resolve w op).handles = w.handles ∧ (step resolve w op).nextHandle = w.nextHandle →
      HistRel (histStep s op) (step resolve w op) := by
    intro op e ⟨h1, h2⟩
    rw [e]; exact histRel_same h h1 h2
  have grow : ∀ (k : Nat) (H H' : Handle Path Fid V) (es : List (Edit Path Fid V)) (w' : World Path Fid V),
      w.handles k = some H → s.2 k = some es → H'.am = H.am →
      w'.handles = set w.handles w.nextHandle (some H') → w'.nextHandle = w.nextHandle + 1 →
      HistRel (s.1 + 1, set s.2 s.1 (some es)) w' := by
    intro k H H' es w' h1 h2 h3 h4 h5
    refine ⟨by rw [h5, ← h.1], fun j => ?_⟩
    rw [h4, ← h.1]
    by_cases hj : j = s.1
    · subst hj
      simp only [set_eq]
      refine ⟨by constructor <;> (intro h; cases h), fun es' H'' e1 e2 => ?_⟩
      injection e1 with e1
      injection e2 with e2
      subst e1 e2
      rw [h3]; exact (h.2 k).2 es H h2 h1
    · simp only [set_ne _ _ hj]; exact h.2 j
  have hist : ∀ k H, w.handles k = some H → ∃ es, s.2 k = some es := by
    intro k H hk
    cases e : s.2 k with
    | some es => exact ⟨es, rfl⟩
    | none => rw [(h.2 k).1.mp e] at hk; cases hk
  cases op with
  | snapshot k =>
    cases hk : w.handles k with
    | none =>
      have := (h.2 k).1.mpr hk
      exact keep _ (by simp only [histStep, this]) (by simp only [step, snapshot, hk]; exact ⟨trivial, trivial⟩)
    | some H =>
      obtain ⟨es, he⟩ := hist k H hk
      simp only [histStep, he]
      exact grow k H H es _ hk he rfl (by simp only [step, snapshot, hk]) (by simp only [step, snapshot, hk])
  | fork k =>
    cases hk : w.handles k with
    | none =>
      have := (h.2 k).1.mpr hk
      exact keep _ (by simp only [histStep, this]) (by simp only [step, fork, hk]; exact ⟨trivial, trivial⟩)
    | some H =>
      obtain ⟨es, he⟩ := hist k H hk
      simp only [histStep, he]
      exact grow k H ⟨w.nextStore, 2, H.am⟩ es _ hk he rfl (by simp only [step, fork, hk]) (by simp only [step, fork, hk])
  | revise k es =>
    cases hk : w.handles k with
    | none =>
      have := (h.2 k).1.mpr hk
      exact keep _ (by simp only [histStep, this]) (by simp only [step, revise, hk]; exact ⟨trivial, trivial⟩)
    | some H =>
      obtain ⟨es0, he⟩ := hist k H hk
      simp only [histStep, he]
      rcases step_handles (resolve := resolve) w (.revise k es) with ⟨h1, h2, h3⟩ | ⟨a, _, _, h1, _⟩ |
          ⟨a, es', K, K', h1, h2, h3, -, h4, h5⟩
      · -- impossible unless nothing changes; still handled through the definition
        have hd : ∃ K', K'.am = (revising w H es).am ∧
            (step resolve w (.revise k es)).handles = set w.handles k (some K') := by
          simp only [step, revise, hk]
          by_cases hc : (revising w H es).changed = true
          · rw [if_pos hc]; exact ⟨_, rfl, rfl⟩
          · rw [if_neg hc]; exact ⟨⟨H.store, H.revision, (revising w H es).am⟩, rfl, rfl⟩
        obtain ⟨K', d1, d2⟩ := hd
        refine ⟨by rw [h2]; exact h.1, fun j => ?_⟩
        rw [d2]
        by_cases hj : j = k
        · subst hj
          simp only [set_eq]
          refine ⟨by constructor <;> (intro h; cases h), fun es' H'' e1 e2 => ?_⟩
          injection e1 with e1
          injection e2 with e2
          subst e1 e2
          rw [d1]
          exact layers_revising ((h.2 j).2 es0 H he hk) es
        · simp only [set_ne _ _ hj]; exact h.2 j
      · rcases h1 with ⟨h1, -⟩ | ⟨h1, -⟩ <;> cases h1
      · injection h1 with e1 e2
        subst e1 e2
        rw [hk] at h2
        injection h2 with h2
        subst h2
        refine ⟨by rw [h5]; exact h.1, fun j => ?_⟩
        rw [h4]
        by_cases hj : j = k
        · subst hj
          simp only [set_eq]
          refine ⟨by constructor <;> (intro h; cases h), fun es' H'' e1 e2 => ?_⟩
          injection e1 with e1
          injection e2 with e2
          subst e1 e2
          rw [h3]
          exact layers_revising ((h.2 j).2 es0 H he hk) es
        · simp only [set_ne _ _ hj]; exact h.2 j
  | beginRead k f =>
    rcases step_handles (resolve := resolve) w (.beginRead k f) with ⟨h1, h2, h3⟩ | ⟨a, _, _, h1, _⟩ | ⟨a, _, _, _, h1, _⟩
    · exact keep _ rfl ⟨h1, h2⟩
    · rcases h1 with ⟨h1, -⟩ | ⟨h1, -⟩ <;> cases h1
    · cases h1
  | finishRead i =>
    rcases step_handles (resolve := resolve) w (.finishRead i) with ⟨h1, h2, h3⟩ | ⟨a, _, _, h1, _⟩ | ⟨a, _, _, _, h1, _⟩
    · exact keep _ rfl ⟨h1, h2⟩
    · rcases h1 with ⟨h1, -⟩ | ⟨h1, -⟩ <;> cases h1
    · cases h1
  | read k f =>
    rcases step_handles (resolve := resolve) w (.read k f) with ⟨h1, h2, h3⟩ | ⟨a, _, _, h1, _⟩ | ⟨a, _, _, _, h1, _⟩
    · exact keep _ rfl ⟨h1, h2⟩
    · rcases h1 with ⟨h1, -⟩ | ⟨h1, -⟩ <;> cases h1
    · cases h1
  | evict k t =>
    rcases step_handles (resolve := resolve) w (.evict k t) with ⟨h1, h2, h3⟩ | ⟨a, _, _, h1, _⟩ | ⟨a, _, _, _, h1, _⟩
    · exact keep _ rfl ⟨h1, h2⟩
    · rcases h1 with ⟨h1, -⟩ | ⟨h1, -⟩ <;> cases h1
    · cases h1
  | disk p v => exact keep _ rfl ⟨rfl, rfl⟩

theorem histRel_run (ops : List (Op Path Fid V)) (disk : Path → V) :
    HistRel (histories ops) (run resolve (init disk) ops) := by
  have gen : ∀ (ops : List (Op Path Fid V)) s (w : World Path Fid V), HistRel s w →
      HistRel (ops.foldl histStep s) (run resolve w ops) := by
    intro ops
    induction ops with
    | nil => exact fun _ _ h => h
    | cons op ops ih => exact fun s w h => ih _ _ (histRel_step h op)
  refine gen ops _ _ ⟨rfl, fun k => ?_⟩
  by_cases hk : k = 0
  · subst hk
    simp only [init, set_eq]
    refine ⟨by constructor <;> (intro h; cases h), fun es' H'' e1 e2 => ?_⟩
    injection e1 with e1
    injection e2 with e2
    subst e1 e2
    exact layers_nil
  · simp only [init, set_ne _ _ hk]
    exact ⟨by simp, fun _ _ e => (by cases e)⟩

/-! ### What is in the cache stays there -/

/-- Handle `k` reads file `f` through cell `c`, which holds `x`. -/
def Holds (w : World Path Fid V) (k : Nat) (f : Fid) (c : Nat) (x : Cell Path V) : Prop :=
  ∃ K e, w.handles k = some K ∧ (w.stores K.store).managed f = some e ∧ e.cell = c ∧ w.bytes c = some x

theorem step_keeps_bytes (w : World Path Fid V) (op : Op Path Fid V) {c : Nat} {x : Cell Path V}
    (h : w.bytes c = some x) : (step resolve w op).bytes c = some x := by
  cases op with
  | snapshot k => simp only [step, snapshot]; cases w.handles k <;> exact h
  | fork k => simp only [step, fork]; cases w.handles k <;> exact h
  | revise k es =>
    simp only [step, revise]
    cases w.handles k with
    | none => exact h
    | some H => simp only; split <;> exact h
  | beginRead k f =>
    simp only [step, beginRead]
    cases w.handles k with
    | none => exact h
    | some H =>
      simp only
      have := (slot_rest w H.store f).2.2.2.1
      split <;> (simp only [this]; exact h)
  | finishRead i =>
    simp only [step, finishRead]
    split
    · exact h
    · split
      · exact h
      · exact fill_keeps _ _ _ h
  | read k f =>
    simp only [step, read]
    cases w.handles k with
    | none => exact h
    | some H =>
      simp only
      have hb := (slot_rest w H.store f).2.2.2.1
      split
      · exact fill_keeps _ _ _ (by rw [hb]; exact h)
      · rw [hb]; exact h
  | evict k t => simp only [step, evict]; cases w.handles k <;> exact h
  | disk p v => exact h

/-- Only `evict` removes entries of a store that is in use. -/
theorem step_keeps_entry {w : World Path Fid V} (op : Op Path Fid V) (hop : ¬ op.Evicts)
    {s : Nat} {f : Fid} {e : Entry} (hs : s < w.nextStore) (h : (w.stores s).managed f = some e) :
    ((step resolve w op).stores s).managed f = some e := by
  cases op with
  | snapshot k => simp only [step, snapshot]; cases w.handles k <;> exact h
  | fork k =>
    simp only [step, fork]
    cases w.handles k with
    | none => exact h
    | some H => simp only [set_ne _ _ (show s ≠ w.nextStore by omega)]; exact h
  | revise k es =>
    simp only [step, revise]
    cases w.handles k with
    | none => exact h
    | some H =>
      simp only
      split
      · simp only [set_ne _ _ (show s ≠ w.nextStore by omega)]; exact h
      · exact h
  | beginRead k g =>
    simp only [step, beginRead]
    cases w.handles k with
    | none => exact h
    | some H =>
      simp only
      have := slot_keeps H.store g h
      split <;> exact this
  | finishRead i =>
    simp only [step, finishRead]
    split
    · exact h
    · split
      · exact h
      · simp only [fill_managed]; exact h
  | read k g =>
    simp only [step, read]
    cases w.handles k with
    | none => exact h
    | some H =>
      simp only
      have := slot_keeps H.store g h
      split
      · simp only [fill_managed]; exact this
      · exact this
  | evict k t => exact (hop trivial).elim
  | disk p v => exact h

/-- Only editing a handle changes it. -/
theorem step_keeps_handle {w : World Path Fid V} (hw : Wf w) (op : Op Path Fid V) {k : Nat} {K : Handle Path Fid V}
    (hop : ¬ op.Edits k) (h : w.handles k = some K) : (step resolve w op).handles k = some K := by
  rcases step_handles (resolve := resolve) w op with ⟨h1, -⟩ | ⟨a, H, H', -, -, h3, -⟩ |
      ⟨a, es, H, H', h1, -, -, -, h4, -⟩
  · rw [h1]; exact h
  · rw [h3, set_ne _ _ (by have := hw.h_lt k K h; omega)]; exact h
  · subst h1
    rw [h4, set_ne]
    · exact h
    · rintro rfl; exact hop rfl

theorem run_keeps {w : World Path Fid V} (hw : Wf w) (ops : List (Op Path Fid V)) {k : Nat} {f : Fid} {c : Nat}
    {x : Cell Path V} (h1 : ∀ op ∈ ops, ¬ op.Evicts) (h2 : ∀ op ∈ ops, ¬ op.Edits k) (h : Holds w k f c x) :
    Holds (run resolve w ops) k f c x := by
  induction ops generalizing w with
  | nil => exact h
  | cons op ops ih =>
    refine ih (wf_step hw op) (fun o ho => h1 o (List.mem_cons_of_mem _ ho))
      (fun o ho => h2 o (List.mem_cons_of_mem _ ho)) ?_
    obtain ⟨K, e, a1, a2, a3, a4⟩ := h
    exact ⟨K, e, step_keeps_handle hw op (h2 op (List.mem_cons_self ..)) a1,
      step_keeps_entry op (h1 op (List.mem_cons_self ..)) (hw.s_lt _ _ a1) a2, a3, step_keeps_bytes w op a4⟩

theorem holds_cached {w : World Path Fid V} {k : Nat} {f : Fid} {c : Nat} {x : Cell Path V} (h : Holds w k f c x) :
    cached w k f = some x.val := by
  obtain ⟨K, e, a1, a2, a3, a4⟩ := h
  unfold cached
  rw [a1]
  simp only [Option.bind_eq_bind, Option.bind_some, a2, a3, a4]
  rfl

theorem cached_holds {w : World Path Fid V} {k : Nat} {f : Fid} {v : V} (h : cached w k f = some v) :
    ∃ c x, Holds w k f c x ∧ x.val = v := by
  unfold cached at h
  cases hk : w.handles k with
  | none => rw [hk] at h; cases h
  | some K =>
    rw [hk] at h
    simp only [Option.bind_eq_bind, Option.bind_some] at h
    cases he : (w.stores K.store).managed f with
    | none => rw [he] at h; cases h
    | some e =>
      rw [he] at h
      simp only [Option.bind_some] at h
      cases hb : w.bytes e.cell with
      | none => rw [hb] at h; cases h
      | some x =>
        rw [hb] at h
        injection h with h
        exact ⟨e.cell, x, ⟨K, e, hk, he, rfl, hb⟩, h⟩

/-- A file whose content is in the cache reads as that. -/
theorem readResult_of_holds {w : World Path Fid V} {k : Nat} {f : Fid} {c : Nat} {x : Cell Path V}
    (h : Holds w k f c x) : readResult resolve w k f = some x.val := by
  apply holds_cached (c := c)
  obtain ⟨K, e, a1, a2, a3, a4⟩ := h
  refine ⟨K, e, ?_, ?_, a3, step_keeps_bytes w (.read k f) a4⟩
  · rcases step_handles (resolve := resolve) w (.read k f) with ⟨h1, -⟩ | ⟨_, _, _, h1, _⟩ | ⟨_, _, _, _, h1, _⟩
    · have h1 : (read resolve w k f).handles = w.handles := h1
      rw [h1]; exact a1
    · rcases h1 with ⟨h1, -⟩ | ⟨h1, -⟩ <;> cases h1
    · cases h1
  · unfold read
    rw [a1]
    simp only
    have := slot_keeps K.store f a2
    rw [this]
    simp only [fill_managed]
    exact this

/-- What a read returned is in the cache afterwards. -/
theorem read_holds {w : World Path Fid V} {k : Nat} {f : Fid} {v : V} (h : readResult resolve w k f = some v) :
    ∃ c x, Holds (read resolve w k f) k f c x ∧ x.val = v := cached_holds h

/-! ### The clean-compile check -/

/-- Handle 0 still has the entry with cell `c` for `f`, or one changed after revision `r`. -/
def Tracks (w : World Path Fid V) (r : Nat) (f : Fid) (c : Nat) : Prop :=
  ∃ H e, w.handles 0 = some H ∧ r ≤ H.revision ∧ (w.stores H.store).managed f = some e ∧
    (e.cell = c ∨ r < e.changedAt)

theorem edits_track (es : List (Edit Path Fid V)) (hr : Edit.resetCache ∉ es) (r0 : Revising Path Fid V)
    {f : Fid} {e : Entry} (h : r0.managed f = some e) :
    ∃ e', (es.foldl Edit.apply r0).managed f = some e' ∧ (e' = e ∨ e'.changedAt = r0.goal) := by
  induction es generalizing r0 e with
  | nil => exact ⟨e, h, Or.inl rfl⟩
  | cons ed es ih =>
    have hne : ed ≠ .resetCache := by rintro rfl; exact hr (List.mem_cons_self ..)
    have t := (edit_touched r0 ed hne).2
    have hr' : Edit.resetCache ∉ es := fun h => hr (List.mem_cons_of_mem _ h)
    rw [List.foldl_cons]
    by_cases ht : ed.touches r0 f
    · obtain ⟨c, t1, -, -⟩ := t.fresh f ht
      have t1 : (ed.apply r0).managed f = some ⟨r0.goal, c⟩ := t1
      obtain ⟨e', h1, h2⟩ := ih hr' _ t1
      refine ⟨e', h1, Or.inr ?_⟩
      rcases h2 with h2 | h2
      · rw [h2]
      · rw [h2, edit_goal]
    · have t1 : (ed.apply r0).managed f = r0.managed f := t.same f ht
      obtain ⟨e', h1, h2⟩ := ih hr' _ (t1.trans h)
      exact ⟨e', h1, h2.imp id (fun h => h.trans (edit_goal _ _))⟩

theorem tracks_step {w : World Path Fid V} (hw : Wf w) (op : Op Path Fid V) {r : Nat} {f : Fid} {c : Nat}
    (h1 : ¬ op.Evicts) (h2 : ¬ op.Resets 0) (h : Tracks w r f c) : Tracks (step resolve w op) r f c := by
  obtain ⟨H, e, a1, a2, a3, a4⟩ := h
  by_cases hop : op.Edits 0
  · cases op with
    | revise k es =>
      have hop : k = 0 := hop
      subst hop
      have hr : Edit.resetCache ∉ es := fun h => h2 ⟨rfl, h⟩
      obtain ⟨e', b1, b2⟩ := edits_track es hr (reviseStart w H) a3
      have b1 : (revising w H es).managed f = some e' := b1
      have hg : (revising w H es).goal = H.revision + 1 := edits_goal (reviseStart w H) es
      have b2 : e' = e ∨ e'.changedAt = H.revision + 1 := b2
      simp only [step, revise, a1]
      by_cases hc : (revising w H es).changed = true
      · rw [if_pos hc]
        refine ⟨⟨w.nextStore, (revising w H es).goal, (revising w H es).am⟩, e', by simp only [set_eq], ?_, ?_, ?_⟩
        · simp only [hg]; omega
        · simp only [set_eq]; exact b1
        · rcases b2 with b2 | b2
          · rw [b2]; exact a4
          · right; omega
      · rw [if_neg hc]
        exact ⟨{ H with am := (revising w H es).am }, e, by simp only [set_eq], a2, a3, a4⟩
    | _ => exact hop.elim
  · exact ⟨H, e, step_keeps_handle hw op hop a1, a2, step_keeps_entry op h1 (hw.s_lt _ _ a1) a3, a4⟩

theorem tracks_run {w : World Path Fid V} (hw : Wf w) (ops : List (Op Path Fid V)) {r : Nat} {f : Fid} {c : Nat}
    (h1 : ∀ op ∈ ops, ¬ op.Evicts) (h2 : ∀ op ∈ ops, ¬ op.Resets 0) (h : Tracks w r f c) :
    Tracks (run resolve w ops) r f c := by
  induction ops generalizing w with
  | nil => exact h
  | cons op ops ih =>
    exact ih (wf_step hw op) (fun o ho => h1 o (List.mem_cons_of_mem _ ho))
      (fun o ho => h2 o (List.mem_cons_of_mem _ ho))
      (tracks_step hw op (h1 op (List.mem_cons_self ..)) (h2 op (List.mem_cons_self ..)) h)

theorem run_keeps_bytes {w : World Path Fid V} (ops : List (Op Path Fid V)) {c : Nat} {x : Cell Path V}
    (h : w.bytes c = some x) : (run resolve w ops).bytes c = some x := by
  induction ops generalizing w with
  | nil => exact h
  | cons op ops ih => exact ih (step_keeps_bytes w op h)

end Tinymist.Vfs
