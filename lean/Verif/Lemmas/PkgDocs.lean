import Verif.Spec.PkgDocs

namespace Tinymist.PkgDocs

theorem target_means {e : Exp} {d : Decl} : target e = .decl d ↔ Means e d := by
  induction e with
  | decl x =>
    simp only [target, Exp.decl.injEq]
    constructor
    · rintro rfl; exact .decl _
    · intro h; cases h; rfl
  | ref r ih =>
    rw [target, ih]
    exact ⟨.ref, fun h => by cases h; assumption⟩
  | select => constructor <;> intro h <;> cases h
  | other => constructor <;> intro h <;> cases h

theorem target_kind (e : Exp) : kindOf e = match target e with
    | .decl d => d.kind | .select => .module | _ => .constant := by
  induction e with
  | ref r ih => rw [kindOf, target, ih]
  | _ => rfl

/-! ## Trees -/

mutual
/-- The definitions in a tree that have children. -/
def docs : Def → List Def
  | .mk n k d e cs => (if cs = [] then [] else [.mk n k d e cs]) ++ docsL cs

def docsL : List Def → List Def
  | [] => []
  | c :: cs => docs c ++ docsL cs
end

theorem docsL_append (a b : List Def) : docsL (a ++ b) = docsL a ++ docsL b := by
  induction a with
  | nil => simp [docsL]
  | cons c cs ih => simp [docsL, ih]

/-- The file of a definition. -/
def Def.file (d : Def) : Option Nat := d.decl.bind (·.file)

mutual
/-- Everything in a tree satisfies `P`. -/
def All (P : Def → Prop) : Def → Prop
  | .mk n k d e cs => P (.mk n k d e cs) ∧ AllL P cs

def AllL (P : Def → Prop) : List Def → Prop
  | [] => True
  | c :: cs => All P c ∧ AllL P cs
end

theorem allL_append {P : Def → Prop} {a b : List Def} : AllL P (a ++ b) ↔ AllL P a ∧ AllL P b := by
  induction a with
  | nil => simp [AllL]
  | cons c cs ih => simp [AllL, ih, and_assoc]

theorem allL_mem {P : Def → Prop} {l : List Def} : AllL P l ↔ ∀ c ∈ l, All P c := by
  induction l with
  | nil => simp [AllL]
  | cons c cs ih => simp [AllL, ih]

mutual
theorem All.imp {P Q : Def → Prop} (h : ∀ d, P d → Q d) : ∀ d, All P d → All Q d
  | .mk _ _ _ _ cs, hp => ⟨h _ hp.1, AllL.imp h cs hp.2⟩

theorem AllL.imp {P Q : Def → Prop} (h : ∀ d, P d → Q d) : ∀ ds, AllL P ds → AllL Q ds
  | [], _ => trivial
  | d :: ds, hp => ⟨All.imp h d hp.1, AllL.imp h ds hp.2⟩
end

theorem All.here {P : Def → Prop} {d : Def} (h : All P d) : P d := by cases d; exact h.1

theorem All.children {P : Def → Prop} {d : Def} (h : All P d) : AllL P d.children := by cases d; exact h.2

mutual
theorem all_docs {P : Def → Prop} : ∀ d, All P d → ∀ x ∈ docs d, All P x
  | .mk n k d e cs, h, x, hx => by
    rw [docs, List.mem_append] at hx
    cases hx with
    | inl hx =>
      split at hx
      · cases hx
      · cases List.mem_singleton.1 hx; exact h
    | inr hx => exact all_docsL cs h.2 x hx

theorem all_docsL {P : Def → Prop} : ∀ ds, AllL P ds → ∀ x ∈ docsL ds, All P x
  | [], _, x, hx => by cases hx
  | d :: ds, h, x, hx => by
    rw [docsL, List.mem_append] at hx
    cases hx with
    | inl hx => exact all_docs d h.1 x hx
    | inr hx => exact all_docsL ds h.2 x hx
end

/-- What is written in a tree for an export of a file. -/
def headOf (g : Nat) (e : Text × Exp) : Text × Kind × Option Decl × Bool :=
  match target e.2 with
  | .decl d => (e.1, d.kind, some d, d.outside g)
  | .select => (e.1, .module, none, false)
  | _ => (e.1, .constant, none, false)

/-- The same of a definition. -/
def Def.head (d : Def) : Text × Kind × Option Decl × Bool := (d.name, d.kind, d.decl, d.isExternal)

/-- The children of a definition are the exports of its file, which is in the package. -/
def Faithful (w : World) (d : Def) : Prop :=
  d.children ≠ [] → ∃ g es, d.file = some g ∧ w.same g = true ∧ w.exports g = some es ∧ d.children.map Def.head = es.map (headOf g)

/-- The file of a definition has an entry, if it is in the package. -/
def Known (w : World) (al : Aliases) (d : Def) : Prop := ∀ g, d.file = some g → w.same g = true → al g ≠ none

/-! ## Aliases -/

/-- The file has a path. -/
def seen (al : Aliases) (g : Nat) : Prop := al.of g ≠ []

theorem of_touch (al : Aliases) (g x : Nat) : (al.touch g).of x = al.of x := by
  simp only [Aliases.of, Aliases.touch]
  by_cases h : x = g
  · rw [if_pos h, h]; simp
  · rw [if_neg h]

theorem of_push (al : Aliases) (g : Nat) (p : Path) (x : Nat) :
    (al.push g p).of x = if x = g then al.of g ++ [p] else al.of x := by
  simp only [Aliases.of, Aliases.push]
  by_cases h : x = g
  · rw [if_pos h, if_pos h]; simp
  · rw [if_neg h, if_neg h]

/-- What a scan from `st` to `st'` did that made the definitions `ds` and the extra ones `ex`. -/
structure Post (w : World) (st : St) (ds ex : List Def) (st' : St) : Prop where
  extras : st'.extras = st.extras ++ ex
  entry : ∀ g, st.aliases g ≠ none → st'.aliases g ≠ none
  mono : ∀ g, ∃ qs, st'.aliases.of g = st.aliases.of g ++ qs
  nodup : ((docsL (ds ++ ex)).map Def.file).Nodup
  files : ∀ g, some g ∈ (docsL (ds ++ ex)).map Def.file ↔
    ¬ seen st.aliases g ∧ seen st'.aliases g ∧ ∃ e es, w.exports g = some (e :: es)
  faithful : AllL (Faithful w) (ds ++ ex)
  known : AllL (Known w st'.aliases) (ds ++ ex)
  closed : ∀ g, ¬ seen st.aliases g → seen st'.aliases g → ∀ n d h, Exports w g n d → d.file = some h → w.same h = true →
    w.exports h ≠ none → seen st'.aliases h
  sound : ∀ g p, p ∈ st'.aliases.of g → p ∈ st.aliases.of g ∨ (w.same g = true ∧ Leads w p g)

theorem Post.seen {w : World} {st st' : St} {ds ex : List Def} (h : Post w st ds ex st') {g : Nat}
    (hs : PkgDocs.seen st.aliases g) : PkgDocs.seen st'.aliases g := by
  obtain ⟨qs, e⟩ := h.mono g
  unfold PkgDocs.seen at hs ⊢
  rw [e]; simp [hs]

/-- Files of documented definitions have a file. -/
theorem docs_file {w : World} {l : List Def} (h : AllL (Faithful w) l) : ∀ x ∈ docsL l, ∃ g, x.file = some g := by
  have h2 : ∀ ds : List Def, (∀ x ∈ docsL ds, x.children ≠ []) := by
    intro ds
    suffices hh : (∀ d : Def, ∀ x ∈ docs d, x.children ≠ []) by
      induction ds with
      | nil => intro x hx; cases hx
      | cons d ds ih =>
        intro x hx
        rw [docsL, List.mem_append] at hx
        exact hx.elim (hh d x) (ih x)
    intro d
    exact docs_ne d
  intro x hx
  have hf := (all_docsL l h x hx).here
  obtain ⟨g, es, e, _⟩ := hf (h2 l x hx)
  exact ⟨g, e⟩
where
  docs_ne : ∀ d : Def, ∀ x ∈ docs d, x.children ≠ []
  | .mk n k d e cs, x, hx => by
    rw [docs, List.mem_append] at hx
    cases hx with
    | inl hx =>
      split at hx
      · cases hx
      · rename_i hne; cases List.mem_singleton.1 hx; exact hne
    | inr hx => exact docsL_ne cs x hx
  docsL_ne : ∀ ds : List Def, ∀ x ∈ docsL ds, x.children ≠ []
  | [], x, hx => by cases hx
  | d :: ds, x, hx => by
    rw [docsL, List.mem_append] at hx
    cases hx with
    | inl hx => exact docs_ne d x hx
    | inr hx => exact docsL_ne ds x hx

theorem Post.refl {w : World} (st : St) (ds : List Def) (hd : docsL ds = []) (hf : AllL (Faithful w) ds)
    (hk : AllL (Known w st.aliases) ds) : Post w st ds [] st where
  extras := by simp
  entry := fun _ h => h
  mono := fun g => ⟨[], by simp⟩
  nodup := by simp [hd]
  files := by
    intro g
    simp only [List.append_nil, hd, List.map_nil, List.not_mem_nil, false_iff]
    exact fun h => h.1 h.2.1
  faithful := by simpa using hf
  known := by simpa using hk
  closed := fun g h1 h2 => (h1 h2).elim
  sound := fun g p h => Or.inl h

theorem Post.trans {w : World} {s0 s1 s2 : St} {d1 e1 d2 e2 : List Def} (h1 : Post w s0 d1 e1 s1)
    (h2 : Post w s1 d2 e2 s2) : Post w s0 (d1 ++ d2) (e1 ++ e2) s2 := by
  have hp : ((d1 ++ d2) ++ (e1 ++ e2)).Perm ((d1 ++ e1) ++ (d2 ++ e2)) := by
    rw [List.append_assoc, List.append_assoc]
    refine List.Perm.append_left d1 ?_
    rw [← List.append_assoc, ← List.append_assoc]
    exact List.Perm.append_right e2 List.perm_append_comm
  have hdp : (docsL ((d1 ++ d2) ++ (e1 ++ e2))).Perm (docsL (d1 ++ e1) ++ docsL (d2 ++ e2)) := by
    simp only [docsL_append]
    rw [List.append_assoc, List.append_assoc]
    refine List.Perm.append_left _ ?_
    rw [← List.append_assoc, ← List.append_assoc]
    exact List.Perm.append_right _ List.perm_append_comm
  have hdm := hdp.map Def.file
  rw [List.map_append] at hdm
  refine ⟨?_, fun g h => h2.entry g (h1.entry g h), ?_, ?_, ?_, ?_, ?_, ?_, ?_⟩
  · rw [h2.extras, h1.extras, List.append_assoc]
  · intro g
    obtain ⟨a, ha⟩ := h1.mono g
    obtain ⟨b, hb⟩ := h2.mono g
    exact ⟨a ++ b, by rw [hb, ha, List.append_assoc]⟩
  · rw [hdm.nodup_iff, List.nodup_append]
    refine ⟨h1.nodup, h2.nodup, ?_⟩
    intro a ha b hb hab
    subst hab
    obtain ⟨x, hx, rfl⟩ := List.mem_map.1 ha
    obtain ⟨g, hg⟩ := docs_file h1.faithful x hx
    rw [hg] at ha hb
    exact ((h2.files g).1 hb).1 ((h1.files g).1 ha).2.1
  · intro g
    rw [hdm.mem_iff, List.mem_append, h1.files, h2.files]
    constructor
    · rintro (⟨a, b, c⟩ | ⟨a, b, c⟩)
      · exact ⟨a, h2.seen b, c⟩
      · exact ⟨fun h => a (h1.seen h), b, c⟩
    · rintro ⟨a, b, c⟩
      by_cases h : PkgDocs.seen s1.aliases g
      · exact Or.inl ⟨a, h, c⟩
      · exact Or.inr ⟨h, b, c⟩
  · rw [allL_mem]
    intro c hc
    rw [hp.mem_iff, List.mem_append] at hc
    exact hc.elim (allL_mem.1 h1.faithful c) (allL_mem.1 h2.faithful c)
  · rw [allL_mem]
    intro c hc
    rw [hp.mem_iff, List.mem_append] at hc
    refine hc.elim (fun hc => ?_) (allL_mem.1 h2.known c)
    exact All.imp (fun d hd g hf hs => h2.entry g (hd g hf hs)) c (allL_mem.1 h1.known c hc)
  · intro g hn hs n d h he hf hsm hx
    by_cases hg : PkgDocs.seen s1.aliases g
    · exact h2.seen (h1.closed g hn hg n d h he hf hsm hx)
    · exact h2.closed g hg hs n d h he hf hsm hx
  · intro g p hpm
    rcases h2.sound g p hpm with h | h
    · exact h1.sound g p h
    · exact Or.inr h

/-! ## The scan -/

/-- A definition is scanned in the right place: the path leads to its file. -/
def Pre (w : World) (path : Path) (key : Text) (d : Decl) : Prop :=
  (d.isModule = true → ∀ g, d.file = some g → w.same g = true → Leads w path g) ∧
  ∀ g, d.isModule = false → d.file = some g → w.same g = true → Leads w (path ++ [['-'], key]) g

/-- The file of a definition is seen after its scan. -/
def Took (w : World) (d : Decl) (st : St) : Prop :=
  ∀ h, d.file = some h → w.same h = true → w.exports h ≠ none → seen st.aliases h

/-- What a scan of definitions does. -/
def Scans (w : World) (scan : Text → Path → Nat → Decl → St → Option (Def × St)) : Prop :=
  ∀ key path site d st c st', scan key path site d st = some (c, st') → Pre w path key d →
    ∃ ex, Post w st [c] ex st' ∧ Took w d st' ∧
      c.head = (key, d.kind, some d, d.outside site)

theorem seen_mono {w : World} {s0 s1 : St} {ds ex : List Def} (h : Post w s0 ds ex s1) {d : Decl} (ht : Took w d s0) :
    Took w d s1 := fun g h1 h2 h3 => h.seen (ht g h1 h2 h3)

theorem leaf_post (w : World) (st : St) (n : Text) (k : Kind) : Post w st [.mk n k none false []] [] st := by
  refine Post.refl st _ (by simp [docsL, docs]) ?_ ?_
  · exact ⟨⟨fun h => (h rfl).elim, trivial⟩, trivial⟩
  · exact ⟨⟨fun g h => (by cases h), trivial⟩, trivial⟩

theorem scanAll_post {w : World} {scan : Text → Path → Nat → Decl → St → Option (Def × St)} (hs : Scans w scan)
    {path : Path} {fid : Nat} (hl : Leads w path fid) :
    ∀ (es : List (Text × Exp)) (st : St) (cs : List Def) (st' : St),
      (∀ n e d, (n, e) ∈ es → Means e d → Exports w fid n d) → scanAll scan path fid es st = some (cs, st') →
      ∃ ex, Post w st cs ex st' ∧ cs.map Def.head = es.map (headOf fid) ∧
        ∀ n e d, (n, e) ∈ es → Means e d → Took w d st'
  | [], st, cs, st', _, h => by
    rw [scanAll] at h
    cases h
    exact ⟨[], Post.refl st [] rfl trivial trivial, rfl, fun n e d h => by cases h⟩
  | (n, e) :: rest, st, cs, st', hx, h => by
    rw [scanAll] at h
    have step : ∀ r, (match target e with
        | .decl d => scan n (path ++ [n]) fid d st
        | .select => some (.mk n .module none false [], st)
        | _ => some (.mk n .constant none false [], st)) = some r →
        ∃ ex, Post w st [r.1] ex r.2 ∧ r.1.head = headOf fid (n, e) ∧ ∀ d, Means e d → Took w d r.2 := by
      intro r hr
      cases ht : target e with
      | decl d =>
        rw [ht] at hr
        have hm := target_means.1 ht
        have hex := hx n e d (List.mem_cons_self ..) hm
        obtain ⟨ex, h1, h2, h3⟩ := hs n (path ++ [n]) fid d st r.1 r.2 hr
          ⟨fun hmod g hg hsm => .module hl hex hmod hg hsm, fun g _ hg hsm => .inside hl hex hg hsm⟩
        refine ⟨ex, h1, ?_, fun d' hd' => ?_⟩
        · rw [h3, headOf]; simp only [ht]
        · have := target_means.2 hd'
          rw [ht] at this
          cases this
          exact h2
      | select =>
        rw [ht] at hr
        cases hr
        refine ⟨[], leaf_post w st n _, by rw [headOf]; simp only [ht]; rfl, fun d' hd' => ?_⟩
        have := target_means.2 hd'
        rw [ht] at this
        cases this
      | other =>
        rw [ht] at hr
        cases hr
        refine ⟨[], leaf_post w st n _, by rw [headOf]; simp only [ht]; rfl, fun d' hd' => ?_⟩
        have := target_means.2 hd'
        rw [ht] at this
        cases this
      | ref x =>
        rw [ht] at hr
        cases hr
        refine ⟨[], leaf_post w st n _, by rw [headOf]; simp only [ht]; rfl, fun d' hd' => ?_⟩
        have := target_means.2 hd'
        rw [ht] at this
        cases this
    split at h
    · cases h
    · rename_i c st1 hc
      obtain ⟨ex1, p1, hd1, t1⟩ := step (c, st1) hc
      split at h
      · cases h
      · rename_i cs2 st2 hc2
        cases h
        obtain ⟨ex2, p2, hd2, t2⟩ := scanAll_post hs hl rest st1 cs2 st' (fun n e d hm => hx n e d (List.mem_cons_of_mem _ hm)) hc2
        refine ⟨ex1 ++ ex2, p1.trans p2, ?_, ?_⟩
        · rw [List.map_cons, List.map_cons, hd1, hd2]
        · intro n' e' d' hm hmean
          cases List.mem_cons.1 hm with
          | inl he => cases he; exact seen_mono p2 (t1 d' hmean)
          | inr hm => exact t2 n' e' d' hm hmean

theorem moduleOf_some {w : World} {d : Decl} {g : Nat} (h : w.moduleOf d = some g) :
    d.isModule = true ∧ d.file = some g ∧ w.same g = true := by
  unfold World.moduleOf at h
  split at h
  · rename_i hm
    rw [Option.filter_eq_some_iff] at h
    exact ⟨hm, h.1, h.2⟩
  · cases h

/-- A file gets another path. -/
theorem push_post {w : World} {st : St} {g : Nat} {path : Path} {c : Def} (hl : Leads w path g) (hsm : w.same g = true)
    (hd : docs c = []) (hf : All (Faithful w) c) (hc : c.file = some g) (hcs : c.children = [])
    (hok : seen st.aliases g ∨ w.exports g = none) :
    Post w st [c] [] ⟨st.aliases.push g path, st.extras⟩ where
  extras := by simp
  entry := by
    intro x h
    simp only [Aliases.push]
    split
    · simp
    · exact h
  mono := by
    intro x
    show ∃ qs, (st.aliases.push g path).of x = _
    rw [of_push]
    by_cases h : x = g
    · exact ⟨[path], by rw [if_pos h, h]⟩
    · exact ⟨[], by rw [if_neg h]; simp⟩
  nodup := by simp [docsL, hd]
  files := by
    intro x
    simp only [List.append_nil, docsL, hd, List.map_nil, List.not_mem_nil, false_iff]
    rintro ⟨h1, h2, e, es, h3⟩
    unfold seen at h2
    rw [of_push] at h2
    by_cases h : x = g
    · subst h
      cases hok with
      | inl h => exact h1 h
      | inr h => rw [h] at h3; cases h3
    · rw [if_neg h] at h2; exact h1 h2
  faithful := ⟨hf, trivial⟩
  known := by
    refine ⟨?_, trivial⟩
    cases c with
    | mk n k d e cs =>
      cases hcs
      refine ⟨?_, trivial⟩
      intro x hx _
      rw [hx] at hc
      cases hc
      simp [Aliases.push]
  closed := by
    intro x h1 h2 n d h he
    unfold seen at h2
    rw [of_push] at h2
    by_cases hx : x = g
    · subst hx
      cases hok with
      | inl h => exact (h1 h).elim
      | inr h =>
        obtain ⟨es, e, h3, _⟩ := he
        rw [h] at h3; cases h3
    · rw [if_neg hx] at h2; exact (h1 h2).elim
  sound := by
    intro x p hp
    have hp' : p ∈ (st.aliases.push g path).of x := hp
    rw [of_push] at hp'
    by_cases hx : x = g
    · subst hx
      rw [if_pos rfl, List.mem_append] at hp'
      cases hp' with
      | inl h => exact Or.inl h
      | inr h => cases List.mem_singleton.1 h; exact Or.inr ⟨hsm, hl⟩
    · rw [if_neg hx] at hp'; exact Or.inl hp'

/-- A module is scanned for the first time. -/
theorem fresh_post {w : World} {st st' : St} {g : Nat} {path : Path} {key : Text} {d : Decl} {ext : Bool} {cs ex : List Def}
    {es : List (Text × Exp)} (hl : Leads w path g) (hsm : w.same g = true) (hfile : d.file = some g)
    (hfresh : st.aliases.of g = []) (hes : w.exports g = some es)
    (hp : Post w ⟨st.aliases.push g path, st.extras⟩ cs ex st') (hcs : cs.map Def.head = es.map (headOf g))
    (ht : ∀ n e d, (n, e) ∈ es → Means e d → Took w d st') :
    Post w st [.mk key d.kind (some d) ext cs] ex st' := by
  have hself : seen (st.aliases.push g path) g := by unfold seen; rw [of_push, if_pos rfl]; simp
  have hself' : seen st'.aliases g := hp.seen hself
  have hnot : ¬ seen st.aliases g := by unfold seen; simp [hfresh]
  have hother : ∀ x, x ≠ g → (seen (st.aliases.push g path) x ↔ seen st.aliases x) := by
    intro x hx; unfold seen; rw [of_push, if_neg hx]
  have hlen : cs = [] ↔ es = [] := by
    have := congrArg List.length hcs
    simp only [List.length_map] at this
    constructor
    · rintro rfl; exact List.eq_nil_of_length_eq_zero this.symm
    · rintro rfl; exact List.eq_nil_of_length_eq_zero this
  have hdocs : docsL ([Def.mk key d.kind (some d) ext cs] ++ ex) =
      (if cs = [] then [] else [Def.mk key d.kind (some d) ext cs]) ++ docsL (cs ++ ex) := by
    simp [docsL, docs, docsL_append]
  have hnotin : some g ∉ (docsL (cs ++ ex)).map Def.file := fun h => ((hp.files g).1 h).1 hself
  refine ⟨hp.extras, ?_, ?_, ?_, ?_, ?_, ?_, ?_, ?_⟩
  · intro x hx
    apply hp.entry
    show (st.aliases.push g path) x ≠ none
    simp only [Aliases.push]
    split
    · simp
    · exact hx
  · intro x
    obtain ⟨qs, e⟩ := hp.mono x
    have e : st'.aliases.of x = (st.aliases.push g path).of x ++ qs := e
    rw [of_push] at e
    by_cases hx : x = g
    · rw [if_pos hx] at e
      subst hx
      exact ⟨[path] ++ qs, by rw [e, List.append_assoc]⟩
    · rw [if_neg hx] at e; exact ⟨qs, e⟩
  · rw [hdocs]
    split
    · exact hp.nodup
    · rw [List.map_append, List.map_cons, List.map_nil, List.singleton_append, List.nodup_cons]
      exact ⟨by rw [show (Def.mk key d.kind (some d) ext cs).file = some g from hfile]; exact hnotin, hp.nodup⟩
  · intro x
    rw [hdocs, List.map_append, List.mem_append, hp.files]
    by_cases hx : x = g
    · subst hx
      constructor
      · rintro (h | h)
        · split at h
          · cases h
          · rename_i hne
            refine ⟨hnot, hself', ?_⟩
            cases es with
            | nil => exact (hne (hlen.2 rfl)).elim
            | cons e es => exact ⟨e, es, hes⟩
        · exact (h.1 hself).elim
      · rintro ⟨_, _, e, es', h3⟩
        rw [hes] at h3
        cases h3
        refine Or.inl ?_
        rw [if_neg (fun h => by cases hlen.1 h)]
        exact List.mem_singleton.2 hfile.symm
    · constructor
      · rintro (h | ⟨h1, h2, h3⟩)
        · split at h
          · cases h
          · have := List.mem_singleton.1 h
            rw [show (Def.mk key d.kind (some d) ext cs).file = some g from hfile] at this
            exact (hx (Option.some.inj this)).elim
        · exact ⟨fun h => h1 ((hother x hx).2 h), h2, h3⟩
      · rintro ⟨h1, h2, h3⟩
        exact Or.inr ⟨fun h => h1 ((hother x hx).1 h), h2, h3⟩
  · obtain ⟨h1, h2⟩ := allL_append.1 hp.faithful
    exact allL_append.2 ⟨⟨⟨fun _ => ⟨g, es, hfile, hsm, hes, hcs⟩, h1⟩, trivial⟩, h2⟩
  · obtain ⟨h1, h2⟩ := allL_append.1 hp.known
    refine allL_append.2 ⟨⟨⟨?_, h1⟩, trivial⟩, h2⟩
    intro x hx _
    have hx' : d.file = some x := hx
    rw [hfile] at hx'
    cases hx'
    intro h
    apply hself'
    simp [Aliases.of, h]
  · intro x h1 h2 n d' h he hf hs hx
    by_cases hxg : x = g
    · subst hxg
      obtain ⟨es', e, h3, h4, h5⟩ := he
      rw [hes] at h3
      cases h3
      exact ht n e d' h4 h5 h hf hs hx
    · exact hp.closed x (fun h => h1 ((hother x hxg).1 h)) h2 n d' h he hf hs hx
  · intro x p hpm
    rcases hp.sound x p hpm with h | h
    · have h : p ∈ (st.aliases.push g path).of x := h
      rw [of_push] at h
      by_cases hx : x = g
      · subst hx
        rw [if_pos rfl, List.mem_append] at h
        cases h with
        | inl h => exact Or.inl h
        | inr h => cases List.mem_singleton.1 h; exact Or.inr ⟨hsm, hl⟩
      · rw [if_neg hx] at h; exact Or.inl h
    · exact Or.inr h

/-- A definition without children, whose file is or gets known. -/
theorem touch_post {w : World} {st st' : St} {g : Nat} {ds ex : List Def}
    (hp : Post w ⟨st.aliases.touch g, st.extras⟩ ds ex st') : Post w st ds ex st' := by
  have hs : ∀ x, seen (st.aliases.touch g) x ↔ seen st.aliases x := by intro x; unfold seen; rw [of_touch]
  refine ⟨hp.extras, ?_, ?_, hp.nodup, ?_, hp.faithful, hp.known, ?_, ?_⟩
  · intro x hx
    apply hp.entry
    show (st.aliases.touch g) x ≠ none
    simp only [Aliases.touch]
    split
    · simp
    · exact hx
  · intro x
    obtain ⟨qs, e⟩ := hp.mono x
    have e : st'.aliases.of x = (st.aliases.touch g).of x ++ qs := e
    rw [of_touch] at e
    exact ⟨qs, e⟩
  · intro x
    rw [hp.files x]
    show ¬ seen (st.aliases.touch g) x ∧ _ ↔ _
    rw [hs]
  · intro x h1
    exact hp.closed x (fun h => h1 ((hs x).1 h))
  · intro x p h
    rcases hp.sound x p h with h | h
    · have h : p ∈ (st.aliases.touch g).of x := h
      rw [of_touch] at h
      exact Or.inl h
    · exact Or.inr h

theorem scanDef_post (w : World) : ∀ fuel, Scans w (scanDef w fuel)
  | 0 => by intro key path site d st c st' h; cases h
  | fuel + 1 => by
    intro key path site d st c st' h hpre
    have ih := scanDef_post w fuel
    rw [scanDef] at h
    generalize hext : d.outside site = ext at h ⊢
    -- the children
    have child : ∀ r, (match w.moduleOf d with
      | none => some ([], st)
      | some g =>
        if st.aliases.of g = [] then
          match w.exports g with
          | none => some ([], ⟨st.aliases.push g path, st.extras⟩)
          | some es => scanAll (scanDef w fuel) path g es ⟨st.aliases.push g path, st.extras⟩
        else some ([], ⟨st.aliases.push g path, st.extras⟩)) = some r →
        (w.moduleOf d = none ∧ r = ([], st)) ∨
        ∃ g ex, w.moduleOf d = some g ∧ Post w st [.mk key d.kind (some d) ext r.1] ex r.2 ∧ seen r.2.aliases g := by
      intro r hr
      cases hm : w.moduleOf d with
      | none => rw [hm] at hr; cases hr; exact Or.inl ⟨rfl, rfl⟩
      | some g =>
        rw [hm] at hr
        obtain ⟨h1, h2, h3⟩ := moduleOf_some hm
        have hl := hpre.1 h1 g h2 h3
        have hpushed : seen (st.aliases.push g path) g := by unfold seen; rw [of_push, if_pos rfl]; simp
        have hleaf : All (Faithful w) (.mk key d.kind (some d) ext []) := ⟨fun h => (h rfl).elim, trivial⟩
        simp only at hr
        refine Or.inr ⟨g, ?_⟩
        split at hr
        · rename_i hfresh
          cases hes : w.exports g with
          | none =>
            rw [hes] at hr
            cases hr
            exact ⟨[], rfl, push_post hl h3 (by simp [docs, docsL]) hleaf h2 rfl (Or.inr hes), hpushed⟩
          | some es =>
            rw [hes] at hr
            obtain ⟨cs, st1⟩ := r
            obtain ⟨ex, p1, hd, ht⟩ := scanAll_post ih hl es _ cs st1
              (fun n e d' hmem hmean => ⟨es, e, hes, hmem, hmean⟩) hr
            exact ⟨ex, rfl, fresh_post hl h3 h2 hfresh hes p1 hd ht, p1.seen hpushed⟩
        · rename_i hold
          cases hr
          exact ⟨[], rfl, push_post hl h3 (by simp [docs, docsL]) hleaf h2 rfl (Or.inl hold), hpushed⟩
    split at h
    · cases h
    · rename_i cs st1 hc
      rcases child _ hc with ⟨hnm, he⟩ | ⟨g, ex, hm, hp, hseen⟩
      · cases he
        have hleafF : AllL (Faithful w) [.mk key d.kind (some d) ext []] := ⟨⟨fun h => (h rfl).elim, trivial⟩, trivial⟩
        have hdl : docsL [Def.mk key d.kind (some d) ext []] = [] := by simp [docsL, docs]
        dsimp only at h
        cases hf : d.file with
        | none =>
          rw [hf] at h
          cases h
          refine ⟨[], Post.refl _ _ hdl hleafF ⟨⟨fun g hg => ?_, trivial⟩, trivial⟩, fun g hg => ?_, rfl⟩
          · have : d.file = some g := hg
            rw [hf] at this; cases this
          · rw [hf] at hg; cases hg
        | some g =>
          rw [hf] at h
          dsimp only at h
          split at h
          · rename_i hcond
            have hnotmod : d.isModule = false := by
              cases hmod : d.isModule with
              | false => rfl
              | true => simp [World.moduleOf, hmod, hf, hcond.1, Option.filter] at hnm
            have htouched : Post w st [.mk key d.kind (some d) ext []] [] ⟨st.aliases.touch g, st.extras⟩ := by
              refine touch_post (g := g) (Post.refl _ _ hdl hleafF ⟨⟨fun x hx _ => ?_, trivial⟩, trivial⟩)
              have : d.file = some x := hx
              rw [hf] at this
              cases this
              simp [Aliases.touch]
            cases hes : w.exports g with
            | none =>
              rw [hes] at h
              cases h
              refine ⟨[], htouched, fun x hx _ hne => ?_, rfl⟩
              rw [hf] at hx; cases hx; exact (hne hes).elim
            | some es =>
              rw [hes] at h
              dsimp only at h
              split at h
              · cases h
              · rename_i m st2 hrec
                cases h
                obtain ⟨ex, p2, t2, _⟩ := ih _ _ _ _ _ _ _ hrec
                  ⟨fun _ x hx hsm => by cases hx; exact hpre.2 g hnotmod hf hsm, fun x hx => by cases hx⟩
                have p3 := htouched.trans p2
                refine ⟨ex ++ [m], ?_, ?_, rfl⟩
                · have hperm : ([Def.mk key d.kind (some d) ext []] ++ [m] ++ ([] ++ ex)).Perm
                      ([Def.mk key d.kind (some d) ext []] ++ (ex ++ [m])) := by
                    rw [List.append_assoc, List.nil_append]
                    exact List.Perm.append_left _ List.perm_append_comm
                  have hdp : (docsL ([Def.mk key d.kind (some d) ext []] ++ [m] ++ ([] ++ ex))).Perm
                      (docsL ([Def.mk key d.kind (some d) ext []] ++ (ex ++ [m]))) := by
                    simp only [docsL_append, hdl, List.nil_append]
                    exact List.perm_append_comm
                  refine ⟨?_, p3.entry, p3.mono, ?_, ?_, ?_, ?_, p3.closed, p3.sound⟩
                  · have := p2.extras
                    dsimp only at this ⊢
                    rw [this, List.append_assoc]
                  · exact ((hdp.map Def.file).nodup_iff).1 p3.nodup
                  · intro x
                    rw [← (hdp.map Def.file).mem_iff]
                    exact p3.files x
                  · rw [allL_mem]
                    intro c hc
                    exact allL_mem.1 p3.faithful c (hperm.mem_iff.2 hc)
                  · rw [allL_mem]
                    intro c hc
                    exact allL_mem.1 p3.known c (hperm.mem_iff.2 hc)
                · intro x hx
                  rw [hf] at hx
                  cases hx
                  exact t2 g rfl
          · rename_i hcond
            cases h
            have hs : w.same g = true → seen st.aliases g := fun hs h => hcond ⟨hs, h⟩
            refine ⟨[], Post.refl _ _ hdl hleafF ⟨⟨fun x hx hs' => ?_, trivial⟩, trivial⟩, fun x hx hs' _ => ?_, rfl⟩
            · have : d.file = some x := hx
              rw [hf] at this
              cases this
              intro hn
              apply hs hs'
              simp [Aliases.of, hn]
            · rw [hf] at hx; cases hx; exact hs hs'
      · obtain ⟨h1, h2, h3⟩ := moduleOf_some hm
        dsimp only at h
        rw [h2] at h
        dsimp only at h
        rw [if_neg (fun h => hseen h.2)] at h
        cases h
        exact ⟨ex, hp, fun x hx _ _ => by rw [h2] at hx; cases hx; exact hseen, rfl⟩

/-! ## Enough fuel -/

/-- The number of files that have no path yet. -/
def unseen (files : List Nat) (al : Aliases) : Nat := files.countP fun g => decide (al.of g = [])

theorem unseen_mono {files : List Nat} {a b : Aliases} (h : ∀ g, seen a g → seen b g) : unseen files b ≤ unseen files a := by
  unfold unseen
  refine List.countP_mono_left ?_
  intro g _ hb
  simp only [decide_eq_true_eq] at hb ⊢
  by_cases ha : a.of g = []
  · exact ha
  · exact (h g ha hb).elim

theorem unseen_push {files : List Nat} {al : Aliases} {g : Nat} {p : Path} (hg : g ∈ files) (hf : al.of g = []) :
    unseen files (al.push g p) < unseen files al := by
  unfold unseen
  induction files with
  | nil => cases hg
  | cons x xs ih =>
    rw [List.countP_cons, List.countP_cons]
    have hle : xs.countP (fun g' => decide ((al.push g p).of g' = [])) ≤ xs.countP fun g => decide (al.of g = []) := by
      refine unseen_mono (files := xs) (a := al) (b := al.push g p) fun y hy => ?_
      unfold seen at hy ⊢
      rw [of_push]
      split
      · simp
      · exact hy
    by_cases hx : x = g
    · subst hx
      have e1 : (al.push x p).of x ≠ [] := by rw [of_push, if_pos rfl]; simp
      simp only [e1, hf, decide_false, decide_true, Bool.false_eq_true, if_false, if_true]
      omega
    · have := ih ((List.mem_cons.1 hg).resolve_left fun h => hx h.symm)
      have e1 : (al.push g p).of x = al.of x := by rw [of_push, if_neg hx]
      rw [e1]
      omega

theorem unseen_pos {files : List Nat} {al : Aliases} {g : Nat} (hg : g ∈ files) (hf : al.of g = []) : 0 < unseen files al := by
  unfold unseen
  exact List.countP_pos_iff.2 ⟨g, hg, by simp [hf]⟩

/-- A scan ends, from every state with few unseen files. -/
def Ends (w : World) (files : List Nat) (n : Nat) (scan : Text → Path → Nat → Decl → St → Option (Def × St)) : Prop :=
  ∀ key path site d st, Pre w path key d → unseen files st.aliases ≤ n → (scan key path site d st).isSome = true

theorem scanAll_ends {w : World} {files : List Nat} {n : Nat} {scan : Text → Path → Nat → Decl → St → Option (Def × St)}
    (hs : Scans w scan) (he : Ends w files n scan) {path : Path} {fid : Nat} (hl : Leads w path fid) :
    ∀ (es : List (Text × Exp)) (st : St), (∀ n e d, (n, e) ∈ es → Means e d → Exports w fid n d) →
      unseen files st.aliases ≤ n → (scanAll scan path fid es st).isSome = true
  | [], st, _, _ => rfl
  | (nm, e) :: rest, st, hx, hu => by
    have next : ∀ (c : Def) (st1 : St), unseen files st1.aliases ≤ n →
        (match scanAll scan path fid rest st1 with
          | none => none
          | some (cs, st) => some (c :: cs, st)).isSome = true := by
      intro c st1 h
      have := scanAll_ends hs he hl rest st1 (fun n e d hm => hx n e d (List.mem_cons_of_mem _ hm)) h
      cases hr : scanAll scan path fid rest st1 with
      | none => rw [hr] at this; cases this
      | some r => rfl
    rw [scanAll]
    cases ht : target e with
    | decl d =>
      have hex := hx nm e d (List.mem_cons_self ..) (target_means.1 ht)
      have hpre : Pre w (path ++ [nm]) nm d :=
        ⟨fun hmod g hg hsm => .module hl hex hmod hg hsm, fun g _ hg hsm => .inside hl hex hg hsm⟩
      have := he nm (path ++ [nm]) fid d st hpre hu
      cases hr : scan nm (path ++ [nm]) fid d st with
      | none => rw [hr] at this; cases this
      | some r =>
        obtain ⟨ex, p1, _⟩ := hs nm (path ++ [nm]) fid d st r.1 r.2 hr hpre
        simp only [hr]
        exact next r.1 r.2 (Nat.le_trans (unseen_mono fun g hg => p1.seen hg) hu)
    | select => exact next _ st hu
    | other => exact next _ st hu
    | ref r => exact next _ st hu

theorem scanDef_ends {w : World} {files : List Nat} (hall : AllFiles w files) : ∀ fuel,
    (∀ n, 2 * n + 1 ≤ fuel → Ends w files n (scanDef w fuel)) ∧
    ∀ n key path site d g st, 2 * n ≤ fuel → 1 ≤ fuel → Pre w path key d → w.moduleOf d = some g →
      st.aliases.of g = [] → unseen files st.aliases ≤ n → (scanDef w fuel key path site d st).isSome = true
  | 0 => ⟨fun n h => by omega, fun n key path site d g st _ h => by omega⟩
  | fuel + 1 => by
    obtain ⟨ih1, ih2⟩ := scanDef_ends hall fuel
    have fresh : ∀ n key path site d g st, 2 * n ≤ fuel + 1 → Pre w path key d → w.moduleOf d = some g →
      st.aliases.of g = [] → unseen files st.aliases ≤ n → (scanDef w (fuel + 1) key path site d st).isSome = true := by
      intro n key path site d g st hn hpre hm hf hu
      obtain ⟨h1, h2, h3⟩ := moduleOf_some hm
      have hl := hpre.1 h1 g h2 h3
      have hpushed : seen (st.aliases.push g path) g := by unfold seen; rw [of_push, if_pos rfl]; simp
      rw [scanDef, hm]
      simp only [if_pos hf, h2]
      cases hes : w.exports g with
      | none =>
        simp only
        rw [if_neg (fun h => hpushed h.2)]
        rfl
      | some es =>
        have hg : g ∈ files := hall g h3 (by rw [hes]; simp)
        have hlt := unseen_push (p := path) hg hf
        have hx : ∀ n e d, (n, e) ∈ es → Means e d → Exports w g n d := fun n e d' hmem hmean => ⟨es, e, hes, hmem, hmean⟩
        have hend := scanAll_ends (n := n - 1) (scanDef_post w fuel) (ih1 (n - 1) (by omega)) hl es
          ⟨st.aliases.push g path, st.extras⟩ hx (by show unseen files (st.aliases.push g path) ≤ _; omega)
        simp only
        cases hr : scanAll (scanDef w fuel) path g es ⟨st.aliases.push g path, st.extras⟩ with
        | none => rw [hr] at hend; cases hend
        | some r =>
          obtain ⟨ex, p1, _⟩ := scanAll_post (scanDef_post w fuel) hl es _ r.1 r.2 hx hr
          have hs := p1.seen hpushed
          simp only
          rw [if_neg (fun h => hs h.2)]
          rfl
    refine ⟨?_, fun n key path site d g st h1 _ => fresh n key path site d g st h1⟩
    intro n hn key path site d st hpre hu
    cases hm : w.moduleOf d with
    | some g =>
      by_cases hf : st.aliases.of g = []
      · exact fresh n key path site d g st (by omega) hpre hm hf hu
      · obtain ⟨h1, h2, h3⟩ := moduleOf_some hm
        have hpushed : seen (st.aliases.push g path) g := by unfold seen; rw [of_push, if_pos rfl]; simp
        rw [scanDef, hm]
        simp only [if_neg hf, h2]
        rw [if_neg (fun h => hpushed h.2)]
        rfl
    | none =>
      rw [scanDef, hm]
      simp only
      cases hf : d.file with
      | none => rfl
      | some g =>
        simp only
        split
        · rename_i hcond
          have hnotmod : d.isModule = false := by
            cases hmod : d.isModule with
            | false => rfl
            | true => simp [World.moduleOf, hmod, hf, hcond.1, Option.filter] at hm
          cases hes : w.exports g with
          | none => rfl
          | some es =>
            have hg : g ∈ files := hall g hcond.1 (by rw [hes]; simp)
            have hpos := unseen_pos hg hcond.2
            have hend := ih2 n (w.stem g) (path ++ [['-'], key]) w.root (.mod g) g ⟨st.aliases.touch g, st.extras⟩ (by omega)
              (by omega) ⟨fun _ x hx hsm => by cases hx; exact hpre.2 g hnotmod hf hsm, fun x hx => by cases hx⟩
              (by simp [World.moduleOf, Decl.mod, Option.filter, hcond.1]) (by rw [of_touch]; exact hcond.2)
              (by
                refine Nat.le_trans (unseen_mono fun x hx => ?_) hu
                unfold seen at hx ⊢
                rw [of_touch]; exact hx)
            simp only
            split
            · rename_i hnone; rw [hnone] at hend; cases hend
            · rfl
        · rfl

/-! ## Sections -/

/-- A tree for which sections can be written. -/
def Ready (w : World) (al : Aliases) (d : Def) : Prop := Faithful w d ∧ Known w al d

/-- The children with sections. -/
def kidsOf (d : Def) : List Def := d.children.filter fun c => decide (c.children ≠ [])

theorem docs_eq (d : Def) : docs d = (if d.children = [] then [] else [d]) ++ docsL d.children := by cases d; rfl

theorem docsL_perm (cs : List Def) : (docsL cs).Perm
    (cs.filter (fun c => decide (c.children ≠ [])) ++ docsL ((cs.filter fun c => decide (c.children ≠ [])).flatMap Def.children)) := by
  induction cs with
  | nil => exact List.Perm.refl _
  | cons c cs ih =>
    rw [docsL, docs_eq]
    by_cases h : c.children = []
    · rw [if_pos h, h, List.filter_cons_of_neg (by simp [h])]
      simpa [docsL] using ih
    · rw [if_neg h, List.filter_cons_of_pos (by simp [h]), List.flatMap_cons, docsL_append]
      simp only [List.singleton_append, List.cons_append]
      refine List.Perm.cons c ?_
      refine (List.Perm.append_left _ ih).trans ?_
      rw [← List.append_assoc, ← List.append_assoc]
      exact List.Perm.append_right _ List.perm_append_comm

theorem docsL_flat_perm (ds : List Def) : (docsL (ds.flatMap Def.children)).Perm
    (ds.flatMap kidsOf ++ docsL ((ds.flatMap kidsOf).flatMap Def.children)) := by
  have h := docsL_perm (ds.flatMap Def.children)
  rw [List.filter_flatMap] at h
  exact h

theorem queueOf_eq {w : World} (fid : Option Nat) : ∀ (cs : List Def) (gen : List Nat),
    AllL (Faithful w) cs → ((cs.filter fun c => decide (c.children ≠ [])).map Def.file).Nodup →
    (∀ g ∈ gen, some g ∉ (cs.filter fun c => decide (c.children ≠ [])).map Def.file) →
    ∃ gen', queueOf fid cs gen = (cs.filter (fun c => decide (c.children ≠ [])), gen') ∧
      ∀ g ∈ gen', g ∈ gen ∨ some g ∈ (cs.filter fun c => decide (c.children ≠ [])).map Def.file
  | [], gen, _, _, _ => ⟨gen, rfl, fun g h => Or.inl h⟩
  | c :: cs, gen, hf, hn, hd => by
    rw [queueOf]
    by_cases h : c.children = []
    · rw [if_pos h]
      rw [List.filter_cons_of_neg (by simp [h])] at hn hd ⊢
      exact queueOf_eq fid cs gen hf.2 hn hd
    · rw [if_neg h]
      rw [List.filter_cons_of_pos (by simp [h])] at hn hd ⊢
      obtain ⟨g, es, hfile, _⟩ := hf.1.here h
      have e : fileOf fid c = some g := by
        unfold fileOf
        rw [show c.decl.bind (·.file) = some g from hfile]; rfl
      rw [e]
      rw [List.map_cons, List.nodup_cons] at hn
      have hng : g ∉ gen := fun hm => hd g hm (by rw [List.map_cons, hfile]; exact List.mem_cons_self ..)
      simp only [if_neg hng]
      obtain ⟨gen', hq, hg⟩ := queueOf_eq fid cs (g :: gen) hf.2 hn.2 (by
        intro x hx
        cases List.mem_cons.1 hx with
        | inl h => subst h; rw [← hfile]; exact hn.1
        | inr h => exact fun hm => hd x h (by rw [List.map_cons]; exact List.mem_cons_of_mem _ hm))
      rw [hq]
      refine ⟨gen', rfl, fun x hx => ?_⟩
      rw [List.map_cons]
      rcases hg x hx with h | h
      · cases List.mem_cons.1 h with
        | inl h => subst h; exact Or.inr (by rw [hfile]; exact List.mem_cons_self ..)
        | inr h => exact Or.inl h
      · exact Or.inr (List.mem_cons_of_mem _ h)

theorem primaryOf_some {al : Aliases} {g : Nat} (h : al g ≠ none) : ∃ p, primaryOf al (some g) = some p := by
  cases ha : al g with
  | none => exact (h ha).elim
  | some ps => exact ⟨_, by simp only [primaryOf, akas, ha, Option.map_some]; rfl⟩

theorem entryOf_some {w : World} {al : Aliases} {f : Nat} (hf : al f ≠ none) (primary : Text) {c : Def}
    (hc : Ready w al c) : ∃ e, entryOf w al (some f) primary c = some e ∧ e.heading = ⟨c.kind, c.name, primary⟩ ∧
      ∀ g, fileOf (some f) c = some g → c.isExternal = true → w.same g = true →
        e.link = (primaryOf al (some g)).map (Anchor.mk c.kind c.name) := by
  have hcase : ∃ g, fileOf (some f) c = some g ∧ (w.same g = true → al g ≠ none) ∧ (c.children ≠ [] → al g ≠ none) := by
    unfold fileOf
    cases hcf : c.decl.bind (·.file) with
    | none => exact ⟨f, rfl, fun _ => hf, fun _ => hf⟩
    | some g =>
      refine ⟨g, rfl, fun hs => hc.2 g hcf hs, fun hch => ?_⟩
      obtain ⟨g', es, h1, h2, _⟩ := hc.1 hch
      rw [show c.file = some g from hcf] at h1
      cases h1
      exact hc.2 g hcf h2
  obtain ⟨g, hg, h1, h2⟩ := hcase
  unfold entryOf
  simp only [hg]
  by_cases hx : c.isExternal = true ∧ w.same g = true
  · obtain ⟨p, hp⟩ := primaryOf_some (h1 hx.2)
    simp only [if_pos hx, hp, Option.map_some]
    split
    · exact ⟨_, rfl, rfl, fun g' hg' _ _ => by cases hg'; rw [hp]; rfl⟩
    · exact ⟨_, rfl, rfl, fun g' hg' _ _ => by cases hg'; rw [hp]; rfl⟩
  · simp only [if_neg hx]
    split
    · exact ⟨_, rfl, rfl, fun g' hg' a b => by cases hg'; exact (hx ⟨a, b⟩).elim⟩
    · rename_i hch
      obtain ⟨p, hp⟩ := primaryOf_some (h2 hch)
      rw [hp]
      exact ⟨_, rfl, rfl, fun g' hg' a b => by cases hg'; exact (hx ⟨a, b⟩).elim⟩

theorem entriesOf_some {w : World} {al : Aliases} {f : Nat} (hf : al f ≠ none) (primary : Text) : ∀ cs : List Def,
    AllL (Ready w al) cs → ∃ es, entriesOf w al (some f) primary cs = some es ∧
      es.map Entry.heading = cs.map (fun c => ⟨c.kind, c.name, primary⟩) ∧
      ∀ (i : Nat) c e, cs[i]? = some c → es[i]? = some e → entryOf w al (some f) primary c = some e
  | [], _ => ⟨[], rfl, rfl, fun i c e h => by simp at h⟩
  | c :: cs, h => by
    obtain ⟨e, he, hh, _⟩ := entryOf_some (w := w) hf primary h.1.here
    obtain ⟨es, hes, hm, hi⟩ := entriesOf_some (w := w) hf primary cs h.2
    refine ⟨e :: es, by rw [entriesOf, he, hes], by rw [List.map_cons, List.map_cons, hh, hm], ?_⟩
    intro i c' e' h1 h2
    cases i with
    | zero =>
      rw [List.getElem?_cons_zero] at h1 h2
      cases h1; cases h2; exact he
    | succ i =>
      rw [List.getElem?_cons_succ] at h1 h2
      exact hi i c' e' h1 h2

theorem sectionOf_some {w : World} {al : Aliases} {d : Def} {g : Nat} (hf : d.file = some g) (hg : al g ≠ none)
    (hc : AllL (Ready w al) d.children) :
    ∃ s, sectionOf w al d = some s ∧ s.file = some g ∧ primaryOf al (some g) = some s.primary ∧
      entriesOf w al (some g) s.primary d.children = some s.entries := by
  unfold sectionOf
  cases hd : d.decl with
  | none => rw [Def.file, hd] at hf; cases hf
  | some decl =>
    rw [Def.file, hd] at hf
    have hf : decl.file = some g := hf
    obtain ⟨p, hp⟩ := primaryOf_some hg
    obtain ⟨es, hes, _⟩ := entriesOf_some (w := w) hg p d.children hc
    simp only [hf, hp, hes, Option.map_some]
    exact ⟨_, rfl, rfl, rfl, hes⟩

theorem genRound_eq {w : World} {al : Aliases} : ∀ (ds : List Def) (gen : List Nat),
    (∀ d ∈ ds, ∃ g, d.file = some g ∧ al g ≠ none) → (∀ d ∈ ds, AllL (Ready w al) d.children) →
    ((ds.flatMap kidsOf).map Def.file).Nodup → (∀ g ∈ gen, some g ∉ (ds.flatMap kidsOf).map Def.file) →
    ∃ ss gen', genRound w al ds gen = some (ss, ds.flatMap kidsOf, gen') ∧ ds.map (sectionOf w al) = ss.map some ∧
      ∀ g ∈ gen', g ∈ gen ∨ some g ∈ (ds.flatMap kidsOf).map Def.file
  | [], gen, _, _, _, _ => ⟨[], gen, rfl, rfl, fun g h => Or.inl h⟩
  | d :: ds, gen, h1, h2, h3, h4 => by
    obtain ⟨g, hg, hk⟩ := h1 d (List.mem_cons_self ..)
    have hready := h2 d (List.mem_cons_self ..)
    obtain ⟨s, hs, _⟩ := sectionOf_some hg hk hready
    rw [List.flatMap_cons, List.map_append] at h3 h4
    rw [List.nodup_append] at h3
    obtain ⟨gen1, hq, hq1⟩ := queueOf_eq (w := w) (d.decl.bind (·.file)) d.children gen
      (AllL.imp (fun _ h => h.1) _ hready) h3.1 (fun x hx hm => h4 x hx (List.mem_append_left _ hm))
    obtain ⟨ss, gen2, hr, hm, hg2⟩ := genRound_eq ds gen1 (fun x hx => h1 x (List.mem_cons_of_mem _ hx))
      (fun x hx => h2 x (List.mem_cons_of_mem _ hx)) h3.2.1 (fun x hx hm => by
        rcases hq1 x hx with h | h
        · exact h4 x h (List.mem_append_right _ hm)
        · exact h3.2.2 _ h _ hm rfl)
    refine ⟨s :: ss, gen2, ?_, ?_, ?_⟩
    · rw [genRound, hs, hq]
      simp only [hr]
      rfl
    · rw [List.map_cons, List.map_cons, hs, hm]
    · intro x hx
      rw [List.flatMap_cons, List.map_append, List.mem_append]
      rcases hg2 x hx with h | h
      · rcases hq1 x h with h | h
        · exact Or.inl h
        · exact Or.inr (Or.inl h)
      · exact Or.inr (Or.inr h)

theorem genLoop_eq {w : World} {al : Aliases} : ∀ (fuel : Nat) (ds : List Def) (gen : List Nat),
    (∀ d ∈ ds, ∃ g, d.file = some g ∧ al g ≠ none) → (∀ d ∈ ds, AllL (Ready w al) d.children) →
    ((docsL (ds.flatMap Def.children)).map Def.file).Nodup →
    (∀ g ∈ gen, some g ∉ (docsL (ds.flatMap Def.children)).map Def.file) →
    (docsL (ds.flatMap Def.children)).length + 1 ≤ fuel →
    ∃ (ss : List Section) (D : List Def), genLoop w al fuel ds gen = some ss ∧ D.Perm (ds ++ docsL (ds.flatMap Def.children)) ∧
      D.map (sectionOf w al) = ss.map some
  | fuel, [], gen, _, _, _, _, _ => by
    refine ⟨[], [], ?_, ?_, rfl⟩
    · cases fuel <;> rfl
    · simp [docsL]
  | 0, d :: ds, gen, _, _, _, _, h => by omega
  | fuel + 1, d :: ds, gen, h1, h2, h3, h4, h5 => by
    have hp := docsL_flat_perm (d :: ds)
    have hpm := hp.map Def.file
    rw [List.map_append] at hpm
    have hnd := hpm.nodup_iff.1 h3
    rw [List.nodup_append] at hnd
    obtain ⟨ss, gen', hr, hm, hg⟩ := genRound_eq (d :: ds) gen h1 h2 hnd.1
      (fun x hx hmem => h4 x hx (hpm.mem_iff.2 (List.mem_append_left _ hmem)))
    have hkid : ∀ c ∈ (d :: ds).flatMap kidsOf, All (Ready w al) c ∧ c.children ≠ [] := by
      intro c hc
      obtain ⟨x, hx, hcx⟩ := List.mem_flatMap.1 hc
      obtain ⟨h6, h7⟩ := List.mem_filter.1 hcx
      exact ⟨allL_mem.1 (h2 x hx) c h6, by simpa using h7⟩
    rw [genLoop, hr]
    by_cases hempty : (d :: ds).flatMap kidsOf = []
    · rw [hempty]
      refine ⟨ss, d :: ds, by cases fuel <;> simp [genLoop], ?_, hm⟩
      have : docsL ((d :: ds).flatMap Def.children) = [] := by
        rw [hempty] at hp
        exact List.Perm.eq_nil (by simpa [docsL] using hp)
      rw [this, List.append_nil]
    · have hlen := hp.length_eq
      rw [List.length_append] at hlen
      have hpos : 0 < ((d :: ds).flatMap kidsOf).length := List.length_pos_iff.2 hempty
      obtain ⟨ss2, D2, hr2, hp2, hm2⟩ := genLoop_eq fuel ((d :: ds).flatMap kidsOf) gen'
        (fun c hc => by
          obtain ⟨ha, hb⟩ := hkid c hc
          obtain ⟨g, es, h6, h7, _⟩ := ha.here.1 hb
          exact ⟨g, h6, ha.here.2 g h6 h7⟩)
        (fun c hc => (hkid c hc).1.children) hnd.2.1
        (fun x hx hmem => by
          rcases hg x hx with h | h
          · exact h4 x h (hpm.mem_iff.2 (List.mem_append_right _ hmem))
          · exact hnd.2.2 _ h _ hmem rfl)
        (by omega)
      simp only [hr2, Option.map_some]
      refine ⟨ss ++ ss2, (d :: ds) ++ D2, rfl, ?_, by rw [List.map_append, List.map_append, hm, hm2]⟩
      exact List.Perm.append_left _ (hp2.trans hp.symm)

end Tinymist.PkgDocs
