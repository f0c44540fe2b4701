import Verif.Spec.CodeAction
import Verif.Lemmas.Position
import Verif.Props.Position
/-! Lemmas on the code action model. -/
namespace Tinymist.CodeAction
open Position

/-- A node with its offset. -/
def located (x : Text × Node × Text) : Nat × Node := (len8 x.1, x.2.1)

theorem textAll_append (l r : List Node) : textAll (l ++ r) = textAll l ++ textAll r := by
  induction l with
  | nil => simp [textAll]
  | cons c l ih => simp [textAll, ih]

mutual
theorem occ_bounds (pre post : Text) (n : Node) : ∀ x ∈ occurrences pre post n, ∃ a c,
    x.1 = pre ++ a ∧ text n = a ++ text x.2.1 ++ c ∧ x.2.2 = c ++ post := by
  cases n with
  | leaf k t =>
    intro x hx
    rw [occurrences, List.mem_singleton] at hx
    subst hx
    exact ⟨[], [], by simp, by simp, by simp⟩
  | inner k cs =>
    intro x hx
    rw [occurrences, List.mem_cons] at hx
    rcases hx with rfl | hx
    · exact ⟨[], [], by simp, by simp, by simp⟩
    · rw [text]; exact occIn_bounds pre post cs x hx
theorem occIn_bounds (pre post : Text) (cs : List Node) : ∀ x ∈ occurrencesIn pre post cs, ∃ a c,
    x.1 = pre ++ a ∧ textAll cs = a ++ text x.2.1 ++ c ∧ x.2.2 = c ++ post := by
  cases cs with
  | nil => intro x hx; rw [occurrencesIn] at hx; cases hx
  | cons c cs =>
    intro x hx
    rw [occurrencesIn, List.mem_append] at hx
    rw [textAll]
    rcases hx with hx | hx
    · obtain ⟨a, d, h1, h2, h3⟩ := occ_bounds pre (textAll cs ++ post) c x hx
      exact ⟨a, d ++ textAll cs, h1, by rw [h2]; simp, by rw [h3]; simp⟩
    · obtain ⟨a, d, h1, h2, h3⟩ := occIn_bounds (pre ++ text c) post cs x hx
      exact ⟨text c ++ a, d, by rw [h1]; simp, by rw [h2]; simp, h3⟩
end

theorem occIn_mem (pre post : Text) (l r : List Node) (c : Node) :
    (pre ++ textAll l, c, textAll r ++ post) ∈ occurrencesIn pre post (l ++ c :: r) := by
  induction l generalizing pre with
  | nil =>
    rw [List.nil_append, occurrencesIn, List.mem_append]
    refine .inl ?_
    cases c with
    | leaf k t => rw [occurrences]; simp [textAll]
    | inner k cs => rw [occurrences]; simp [textAll]
  | cons d l ih =>
    rw [List.cons_append, occurrencesIn, List.mem_append]
    refine .inr ?_
    have := ih (pre ++ text d)
    rwa [List.append_assoc, ← textAll] at this

mutual
/-- The children of an occurrence occur. -/
theorem occ_child (pre post : Text) (n : Node) : ∀ x ∈ occurrences pre post n, ∀ l c r, x.2.1.children = l ++ c :: r →
    (x.1 ++ textAll l, c, textAll r ++ x.2.2) ∈ occurrences pre post n := by
  cases n with
  | leaf k t =>
    intro x hx l c r h
    rw [occurrences, List.mem_singleton] at hx
    subst hx
    simp [Node.children] at h
  | inner k cs =>
    intro x hx l c r h
    rw [occurrences, List.mem_cons] at hx
    rw [occurrences]
    refine List.mem_cons_of_mem _ ?_
    rcases hx with rfl | hx
    · simp only [Node.children] at h
      rw [h]
      exact occIn_mem pre post l r c
    · exact occIn_child pre post cs x hx l c r h
theorem occIn_child (pre post : Text) (cs : List Node) : ∀ x ∈ occurrencesIn pre post cs, ∀ l c r,
    x.2.1.children = l ++ c :: r → (x.1 ++ textAll l, c, textAll r ++ x.2.2) ∈ occurrencesIn pre post cs := by
  cases cs with
  | nil => intro x hx; rw [occurrencesIn] at hx; cases hx
  | cons d cs =>
    intro x hx l c r h
    rw [occurrencesIn, List.mem_append] at hx ⊢
    rcases hx with hx | hx
    · exact .inl (occ_child _ _ d x hx l c r h)
    · exact .inr (occIn_child _ _ cs x hx l c r h)
end

theorem filter_out {l : List (Text × Node × Text)} {b : Nat}
    (h : ∀ x ∈ l, ¬ (len8 x.1 ≤ b ∧ b < len8 x.1 + len8 (text x.2.1))) : l.filter (Around b) = [] := by
  rw [List.filter_eq_nil_iff]
  intro x hx
  simp only [Around, Bool.and_eq_true, decide_eq_true_eq]
  exact h x hx

theorem occ_out (pre post : Text) (n : Node) (b : Nat) (h : ¬ (len8 pre ≤ b ∧ b < len8 pre + len8 (text n))) :
    (occurrences pre post n).filter (Around b) = [] := by
  refine filter_out fun x hx => ?_
  obtain ⟨a, c, h1, h2, _⟩ := occ_bounds pre post n x hx
  rw [h1, len8_append]
  rw [h2, len8_append, len8_append] at h
  omega

theorem occIn_out (pre post : Text) (cs : List Node) (b : Nat)
    (h : ¬ (len8 pre ≤ b ∧ b < len8 pre + len8 (textAll cs))) : (occurrencesIn pre post cs).filter (Around b) = [] := by
  refine filter_out fun x hx => ?_
  obtain ⟨a, c, h1, h2, _⟩ := occIn_bounds pre post cs x hx
  rw [h1, len8_append]
  rw [h2, len8_append, len8_append] at h
  omega

mutual
theorem leafBefore_eq (pre post : Text) (n : Node) (b : Nat) (h1 : len8 pre ≤ b) (h2 : b < len8 pre + len8 (text n)) :
    leafBefore (len8 pre) (b + 1) n = some (((occurrences pre post n).filter (Around b)).reverse.map located) := by
  cases n with
  | leaf k t =>
    rw [text] at h2
    rw [leafBefore, if_pos (by omega), occurrences]
    simp [Around, h1, h2, located, text]
  | inner k cs =>
    rw [text] at h2
    rw [leafBefore, if_neg (by omega), leafIn_eq pre post cs b h1 h2, occurrences]
    simp [Around, h1, h2, located, text]
theorem leafIn_eq (pre post : Text) (cs : List Node) (b : Nat) (h1 : len8 pre ≤ b)
    (h2 : b < len8 pre + len8 (textAll cs)) :
    leafIn (len8 pre) (b + 1) cs = some (((occurrencesIn pre post cs).filter (Around b)).reverse.map located) := by
  cases cs with
  | nil => rw [textAll, len8_nil] at h2; omega
  | cons c cs =>
    rw [textAll, len8_append] at h2
    rw [leafIn, occurrencesIn, List.filter_append]
    by_cases hc : b < len8 pre + len8 (text c)
    · rw [if_pos (Or.inl ⟨by omega, hc⟩), leafBefore_eq pre (textAll cs ++ post) c b h1 hc,
        occIn_out (pre ++ text c) post cs b (by rw [len8_append]; omega), List.append_nil]
    · rw [if_neg (by omega), occ_out pre _ c b (by omega), List.nil_append, ← len8_append]
      exact leafIn_eq (pre ++ text c) post cs b (by rw [len8_append]; omega) (by rw [len8_append]; omega)
end

/-- `childrenAt` says where the children are. -/
theorem childrenAt_eq (pre : Text) (cs : List Node) :
    ∀ l c r, cs = l ++ c :: r → (childrenAt (len8 pre) cs)[l.length]? = some (len8 (pre ++ textAll l), c) := by
  induction cs generalizing pre with
  | nil => intro l c r h; simp at h
  | cons d cs ih =>
    intro l c r h
    cases l with
    | nil =>
      simp only [List.nil_append, List.cons.injEq] at h
      simp [childrenAt, textAll, h.1]
    | cons d' l =>
      simp only [List.cons_append, List.cons.injEq] at h
      obtain ⟨rfl, h⟩ := h
      have := ih (pre ++ text d) l c r h
      rw [childrenAt, List.length_cons, List.getElem?_cons_succ, ← len8_append, this]
      simp [textAll]

theorem childrenAt_append (pre : Text) (l r : List Node) :
    childrenAt (len8 pre) (l ++ r) = childrenAt (len8 pre) l ++ childrenAt (len8 (pre ++ textAll l)) r := by
  induction l generalizing pre with
  | nil => simp [childrenAt, textAll]
  | cons c l ih =>
    rw [List.cons_append, childrenAt, childrenAt, ← len8_append, ih]
    simp [textAll]

theorem childrenAt_kinds (off : Nat) (l : List Node) : (childrenAt off l).map (·.2) = l := by
  induction l generalizing off with
  | nil => rfl
  | cons c l ih => simp [childrenAt, ih]

/-- The first child of a kind. -/
theorem find_child (pre : Text) (cs : List Node) (k : Kind) :
    (∀ l m r, cs = l ++ m :: r → m.kind = k → (∀ c ∈ l, c.kind ≠ k) →
      (childrenAt (len8 pre) cs).find? (fun c => c.2.kind = k) = some (len8 (pre ++ textAll l), m)) ∧
    ∀ o, (childrenAt (len8 pre) cs).find? (fun c => c.2.kind = k) = some o →
      ∃ l m r, cs = l ++ m :: r ∧ m.kind = k ∧ (∀ c ∈ l, c.kind ≠ k) ∧ o = (len8 (pre ++ textAll l), m) := by
  induction cs generalizing pre with
  | nil => exact ⟨fun l m r h => by simp at h, fun o h => by simp [childrenAt] at h⟩
  | cons d cs ih =>
    obtain ⟨ih1, ih2⟩ := ih (pre ++ text d)
    rw [childrenAt, ← len8_append]
    by_cases hk : d.kind = k
    · refine ⟨fun l m r h hm hl => ?_, fun o h => ?_⟩
      · cases l with
        | nil => simp only [List.nil_append, List.cons.injEq] at h; simp [textAll, h.1, hm]
        | cons d' l =>
          simp only [List.cons_append, List.cons.injEq] at h
          exact (hl d' (List.mem_cons_self ..) (h.1 ▸ hk)).elim
      · simp [hk] at h
        exact ⟨[], d, cs, rfl, hk, by simp, by simp [textAll, ← h]⟩
    · refine ⟨fun l m r h hm hl => ?_, fun o h => ?_⟩
      · cases l with
        | nil => simp only [List.nil_append, List.cons.injEq] at h; exact (hk (h.1 ▸ hm)).elim
        | cons d' l =>
          simp only [List.cons_append, List.cons.injEq] at h
          obtain ⟨rfl, h⟩ := h
          have := ih1 l m r h hm (fun c hc => hl c (List.mem_cons_of_mem _ hc))
          rw [List.find?_cons_of_neg (by simpa using hk), this]
          simp [textAll]
      · rw [List.find?_cons_of_neg (by simpa using hk)] at h
        obtain ⟨l, m, r, e, hm, hl, ho⟩ := ih2 o h
        refine ⟨d :: l, m, r, by rw [e]; rfl, hm, ?_, by rw [ho]; simp [textAll]⟩
        intro c hc
        rcases List.mem_cons.mp hc with rfl | hc
        · exact hk
        · exact hl c hc

/-! ## Edits -/

/-- Edits by pieces: what stays in front of each, what it takes away, what it puts there. -/
def editsOf (base : Text) : List (Text × Text × Text) → List Edit
  | [] => []
  | (gap, mid, w) :: ps => ⟨len8 (base ++ gap), len8 (base ++ gap ++ mid), w⟩ :: editsOf (base ++ gap ++ mid) ps

def oldText : List (Text × Text × Text) → Text
  | [] => []
  | (gap, mid, _) :: ps => gap ++ mid ++ oldText ps

def newText : List (Text × Text × Text) → Text
  | [] => []
  | (gap, _, w) :: ps => gap ++ w ++ newText ps

/-- No `\r\n` is cut at a place of the document. -/
def Whole (doc pre : Text) : Prop := ∀ post, doc = pre ++ post → ¬ (pre.getLast? = some '\r' ∧ post.head? = some '\n')

def AllWhole (doc base : Text) : List (Text × Text × Text) → Prop
  | [] => True
  | (gap, mid, _) :: ps => Whole doc (base ++ gap) ∧ Whole doc (base ++ gap ++ mid) ∧ AllWhole doc (base ++ gap ++ mid) ps

theorem replaced_of {enc : Encoding} {doc : Text} (hp : Plain enc doc) (ps : List (Text × Text × Text)) (base tail : Text)
    (e : doc = base ++ oldText ps ++ tail) (hw : AllWhole doc base ps) :
    ∃ cs, (editsOf base ps).mapM (Edit.toLsp enc doc) = some cs ∧
      Replaced enc doc (oldText ps ++ tail) cs (newText ps ++ tail) := by
  induction ps generalizing base with
  | nil => exact ⟨[], rfl, by simpa [oldText, newText] using Replaced.nil tail⟩
  | cons p ps ih =>
    obtain ⟨gap, mid, w⟩ := p
    simp only [AllWhole] at hw
    simp only [oldText] at e
    have e1 : doc = (base ++ gap) ++ (mid ++ (oldText ps ++ tail)) := by rw [e]; simp
    have e2 : doc = (base ++ gap ++ mid) ++ (oldText ps ++ tail) := by rw [e]; simp
    obtain ⟨l1, c1, h1, p1⟩ := reported_position_is_meant enc doc _ _ e1 hp (hw.1 _ e1)
    obtain ⟨l2, c2, h2, p2⟩ := reported_position_is_meant enc doc _ _ e2 hp (hw.2.1 _ e2)
    obtain ⟨cs, hcs, hr⟩ := ih (base ++ gap ++ mid) (by rw [e2]; simp) hw.2.2
    refine ⟨⟨some ((l1, c1), (l2, c2)), w⟩ :: cs, ?_, ?_⟩
    · rw [editsOf, List.mapM_cons, hcs]
      simp only [Edit.toLsp, h1, h2]
      rfl
    · have := Replaced.cons gap mid (oldText ps ++ tail) w (newText ps ++ tail) l1 c1 l2 c2 cs p1 p2 hr
      simpa [oldText, newText] using this

end Tinymist.CodeAction
