import Verif.Spec.Paths
import Verif.Lemmas.Pages
namespace Tinymist.Paths
open Pages (split split_none split_append split_ne_nil split_cases)

/-! ## Splitting at slashes -/

theorem split_append_sep (sep : Char) (a b : Text) : split sep (a ++ sep :: b) = split sep a ++ split sep b := by
  induction a with
  | nil => simp [split]
  | cons c a ih =>
    rw [List.cons_append, split, split]
    split
    · rw [ih]; rfl
    · rw [ih]
      cases h : split sep a with
      | nil => exact (split_ne_nil _ _ h).elim
      | cons p ps => rfl

theorem split_no_sep {sep : Char} {s p : Text} (h : p ∈ split sep s) : sep ∉ p := by
  induction s generalizing p with
  | nil =>
    simp only [split, List.mem_singleton] at h
    subst h; simp
  | cons c s ih =>
    rw [split] at h
    split at h
    · rcases List.mem_cons.mp h with rfl | h
      · simp
      · exact ih h
    · rename_i hc
      cases hs : split sep s with
      | nil => exact (split_ne_nil _ _ hs).elim
      | cons q qs =>
        rw [hs] at h ih
        rcases List.mem_cons.mp h with rfl | h
        · intro hm
          rcases List.mem_cons.mp hm with e | hm
          · exact hc e.symm
          · exact ih (List.mem_cons_self ..) hm
        · exact ih (List.mem_cons_of_mem _ h)

theorem mem_split_chars {sep c : Char} {s p : Text} (h : p ∈ split sep s) (hc : c ∈ p) : c ∈ s := by
  induction s generalizing p with
  | nil =>
    simp only [split, List.mem_singleton] at h
    subst h; cases hc
  | cons d s ih =>
    rw [split] at h
    split at h
    · rcases List.mem_cons.mp h with rfl | h
      · cases hc
      · exact List.mem_cons_of_mem _ (ih h hc)
    · cases hs : split sep s with
      | nil => exact (split_ne_nil _ _ hs).elim
      | cons q qs =>
        rw [hs] at h ih
        rcases List.mem_cons.mp h with rfl | h
        · rcases List.mem_cons.mp hc with rfl | hc
          · exact List.mem_cons_self ..
          · exact List.mem_cons_of_mem _ (ih (List.mem_cons_self ..) hc)
        · exact List.mem_cons_of_mem _ (ih (List.mem_cons_of_mem _ h) hc)

/-! ## Components -/

/-- A name of a file or directory. -/
def GoodName (n : Text) : Prop := n ≠ [] ∧ '/' ∉ n ∧ n ≠ ['.'] ∧ n ≠ ['.', '.']

/-- A component whose name, if it has one, is a name. -/
def GoodComp (c : Comp) : Prop := ∀ n, c = .normal n → GoodName n

theorem body_append (ps qs : List Text) : body (ps ++ qs) = body ps ++ body qs := by
  simp [body]

theorem mem_body {ps : List Text} {c : Comp} (h : c ∈ body ps) :
    c = .parent ∨ ∃ n ∈ ps, c = .normal n ∧ n ≠ [] ∧ n ≠ ['.'] ∧ n ≠ ['.', '.'] := by
  simp only [body, List.mem_map, List.mem_filter, decide_eq_true_eq] at h
  obtain ⟨p, ⟨hp, h1, h2⟩, rfl⟩ := h
  rw [toComp]
  by_cases h3 : p = ['.', '.']
  · rw [if_pos h3]; exact Or.inl rfl
  · rw [if_neg h3]; exact Or.inr ⟨p, hp, rfl, h1, h2, h3⟩

theorem body_inner {ps : List Text} {c : Comp} (h : c ∈ body ps) : c ≠ .root ∧ c ≠ .cur := by
  rcases mem_body h with rfl | ⟨n, _, rfl, _⟩ <;> simp

theorem body_split_good {s : Text} {c : Comp} (h : c ∈ body (split '/' s)) : GoodComp c := by
  intro n e
  rcases mem_body h with rfl | ⟨m, hm, rfl, h1, h2, h3⟩
  · cases e
  · cases e
    exact ⟨h1, split_no_sep hm, h2, h3⟩

theorem components_good {s : Text} {c : Comp} (h : c ∈ components s) : GoodComp c := by
  rw [components] at h
  split at h
  · rcases List.mem_cons.mp h with rfl | h
    · intro n e; cases e
    · exact body_split_good h
  · split at h
    · rcases List.mem_cons.mp h with rfl | h
      · intro n e; cases e
      · exact body_split_good h
    · exact body_split_good h

theorem body_eq_filter {s : Text} (h : isAbsolute s = false) :
    body (split '/' s) = (components s).filter (· ≠ .cur) := by
  have hf : (body (split '/' s)).filter (· ≠ Comp.cur) = body (split '/' s) :=
    List.filter_eq_self.mpr fun c hc => by simp [(body_inner hc).2]
  rw [components, h]
  simp only [Bool.false_eq_true, if_false]
  split
  · rw [List.filter_cons_of_neg (by simp), hf]
  · exact hf.symm

theorem components_nil : components [] = [] := by decide

theorem head_split_append {sep : Char} (a b : Text) : (split sep a ++ split sep b).head? = (split sep a).head? := by
  cases h : split sep a with
  | nil => exact (split_ne_nil _ _ h).elim
  | cons p ps => rfl

theorem isAbsolute_append {a b : Text} (h : a ≠ []) : isAbsolute (a ++ b) = isAbsolute a := by
  cases a with
  | nil => exact (h rfl).elim
  | cons c a => rfl

theorem body_nil_part : body [[]] = [] := by decide

theorem components_of_body {s t : Text} {x : List Comp} (h1 : isAbsolute s = isAbsolute t)
    (h2 : (split '/' s).head? = (split '/' t).head?) (h3 : body (split '/' s) = body (split '/' t) ++ x) :
    components s = components t ++ x := by
  rw [components, components, h1, h2, h3]
  split
  · rfl
  · split <;> rfl

/-- The components of a joined path. -/
theorem components_join {a b : Text} (ha : a ≠ []) (hb : isAbsolute b = false) :
    components (join a b) = components a ++ (components b).filter (· ≠ .cur) := by
  rw [← body_eq_filter hb, join, hb]
  simp only [Bool.false_eq_true, if_false, ha, false_or]
  by_cases hl : a.getLast? = some '/'
  · rw [if_pos hl]
    obtain ⟨a', rfl⟩ : ∃ a', a = a' ++ ['/'] := List.getLast?_eq_some_iff.mp hl
    have e1 : split '/' (a' ++ ['/'] ++ b) = split '/' a' ++ split '/' b := by
      rw [List.append_assoc]; exact split_append_sep '/' a' b
    have e2 : split '/' (a' ++ ['/']) = split '/' a' ++ [[]] := split_append_sep '/' a' []
    apply components_of_body
    · exact isAbsolute_append (by simp)
    · rw [e1, e2, head_split_append]
      cases h : split '/' a' with
      | nil => exact (split_ne_nil _ _ h).elim
      | cons p ps => rfl
    · rw [e1, e2, body_append, body_append, body_nil_part, List.append_nil]
  · rw [if_neg hl]
    apply components_of_body
    · exact isAbsolute_append ha
    · rw [split_append_sep, head_split_append]
    · rw [split_append_sep, body_append]

/-! ## Following paths -/

theorem walk_append (d : Dir) (a b : List Comp) : walk d (a ++ b) = walk (walk d a) b := List.foldl_append ..

theorem walk_cons (d : Dir) (c : Comp) (cs : List Comp) : walk d (c :: cs) = walk (follow d c) cs := rfl

theorem walk_filter_cur (d : Dir) (cs : List Comp) : walk d (cs.filter (· ≠ .cur)) = walk d cs := by
  induction cs generalizing d with
  | nil => rfl
  | cons c cs ih =>
    by_cases hc : c = .cur
    · subst hc; rw [List.filter_cons_of_neg (by simp), ih]; rfl
    · rw [List.filter_cons_of_pos (by simp [hc]), walk_cons, walk_cons, ih]

theorem walk_root (d e : Dir) {cs : List Comp} (h : cs.head? = some .root) : walk d cs = walk e cs := by
  cases cs with
  | nil => cases h
  | cons c cs => cases h; rfl

theorem components_absolute {s : Text} (h : isAbsolute s = true) : (components s).head? = some .root := by
  rw [components, h]; rfl

/-- Joining paths is following one after the other. -/
theorem denotes_join (cwd : Dir) (a b : Text) : denotes cwd (join a b) = denotes (denotes cwd a) b := by
  cases hb : isAbsolute b with
  | true =>
    rw [join, hb, if_pos rfl]
    exact walk_root _ _ (components_absolute hb)
  | false =>
    by_cases ha : a = []
    · subst ha
      rw [join, hb]
      simp [denotes, components_nil, walk]
    · rw [denotes, components_join ha hb, walk_append, walk_filter_cur]
      rfl

theorem split_good {n : Text} (h : GoodName n) : split '/' n = [n] := split_none h.2.1

theorem good_not_absolute {n : Text} (h : GoodName n) : isAbsolute n = false := by
  cases n with
  | nil => exact (h.1 rfl).elim
  | cons c n =>
    rw [isAbsolute]
    have : c ≠ '/' := fun e => h.2.1 (by simp [e])
    simp [this]

theorem components_compText {c : Comp} (h : GoodComp c) : components (compText c) = [c] := by
  cases c with
  | root => decide
  | cur => decide
  | parent => decide
  | normal n =>
    have hg := h n rfl
    rw [compText, components, good_not_absolute hg, split_good hg]
    have h1 := hg.2.2.1
    have h2 := hg.2.2.2
    have h3 := hg.1
    simp [body, toComp, h1, h2, h3]

theorem compText_not_absolute {c : Comp} (h : GoodComp c) (hr : c ≠ .root) : isAbsolute (compText c) = false := by
  cases c with
  | root => exact (hr rfl).elim
  | cur => decide
  | parent => decide
  | normal n => exact good_not_absolute (h n rfl)

theorem collect_append (a b : List Comp) :
    collect (a ++ b) = b.foldl (fun p c => join p (compText c)) (collect a) := List.foldl_append ..

theorem denotes_collect_from (cwd : Dir) (cs : List Comp) (h : ∀ c ∈ cs, GoodComp c) (p : Text) :
    denotes cwd (cs.foldl (fun p c => join p (compText c)) p) = walk (denotes cwd p) cs := by
  induction cs generalizing p with
  | nil => rfl
  | cons c cs ih =>
    rw [List.foldl_cons, ih (fun c hc => h c (List.mem_cons_of_mem _ hc)), denotes_join]
    rw [denotes, components_compText (h c (List.mem_cons_self ..))]
    rfl

theorem denotes_nil (cwd : Dir) : denotes cwd [] = cwd := rfl

/-- A collected path means its components. -/
theorem denotes_collect (cwd : Dir) (cs : List Comp) (h : ∀ c ∈ cs, GoodComp c) :
    denotes cwd (collect cs) = walk cwd cs := denotes_collect_from cwd cs h []

theorem join_ne_nil {a b : Text} (h : a ≠ [] ∨ b ≠ []) : join a b ≠ [] := by
  rw [join]
  split
  · rename_i hb
    rintro rfl
    cases hb
  · split
    · rcases h with h | h <;> simp [h]
    · simp

theorem compText_ne_nil {c : Comp} (h : GoodComp c) : compText c ≠ [] := by
  cases c with
  | normal n => exact (h n rfl).1
  | _ => simp [compText]

theorem components_collect_from (cs : List Comp) (h : ∀ c ∈ cs, GoodComp c ∧ c ≠ .root ∧ c ≠ .cur) (p : Text)
    (hp : p ≠ []) : components (cs.foldl (fun p c => join p (compText c)) p) = components p ++ cs := by
  induction cs generalizing p with
  | nil => simp
  | cons c cs ih =>
    obtain ⟨hg, hr, hc⟩ := h c (List.mem_cons_self ..)
    rw [List.foldl_cons, ih (fun c hc => h c (List.mem_cons_of_mem _ hc)) _ (join_ne_nil (Or.inl hp)),
      components_join hp (compText_not_absolute hg hr), components_compText hg,
      List.filter_cons_of_pos (by simp [hc])]
    simp

/-- Collecting and splitting again gives the same components. -/
theorem components_collect (c : Comp) (cs : List Comp) (hc : GoodComp c)
    (h : ∀ c ∈ cs, GoodComp c ∧ c ≠ .root ∧ c ≠ .cur) : components (collect (c :: cs)) = c :: cs := by
  have hj : join [] (compText c) = compText c := by
    rw [join]; split <;> simp
  rw [collect, List.foldl_cons, components_collect_from cs h _ (join_ne_nil (Or.inr (compText_ne_nil hc))), hj,
    components_compText hc]
  rfl

/-! ## Cleaning -/

theorem walk_cleanStep (d : Dir) (out : List Comp) (c : Comp) :
    walk d (cleanStep out c).reverse = follow (walk d out.reverse) c := by
  have push : ∀ x, walk d (x :: out).reverse = follow (walk d out.reverse) x := by
    intro x
    rw [List.reverse_cons, walk_append]; rfl
  cases c with
  | root => exact push _
  | cur => rfl
  | normal n => exact push _
  | parent =>
    rw [cleanStep, popStep.eq_def]
    split
    · rename_i rest
      rw [List.reverse_cons, walk_append]; rfl
    · rename_i n rest
      rw [List.reverse_cons, walk_append]
      simp [walk, follow]
    · exact push _

theorem walk_cleanFold (d : Dir) (cs out : List Comp) :
    walk d (cs.foldl cleanStep out).reverse = walk (walk d out.reverse) cs := by
  induction cs generalizing out with
  | nil => rfl
  | cons c cs ih => rw [List.foldl_cons, ih, walk_cleanStep]; rfl

theorem walk_cleanComps (d : Dir) (cs : List Comp) : walk d (cleanComps cs) = walk d cs := walk_cleanFold d cs []

/-- The shape of cleaned paths. -/
def Canon (cs : List Comp) : Prop :=
  (∃ ns : List Text, cs = .root :: ns.map .normal) ∨
    ∃ (k : Nat) (ns : List Text), cs = List.replicate k .parent ++ ns.map .normal

theorem cleanStep_canon {out : List Comp} (h : Canon out.reverse) {c : Comp} (hc : c ≠ .root) :
    Canon (cleanStep out c).reverse := by
  cases c with
  | root => exact (hc rfl).elim
  | cur => exact h
  | normal n =>
    rw [cleanStep, List.reverse_cons]
    rcases h with ⟨ns, e⟩ | ⟨k, ns, e⟩
    · exact Or.inl ⟨ns ++ [n], by rw [e]; simp⟩
    · exact Or.inr ⟨k, ns ++ [n], by rw [e]; simp⟩
  | parent =>
    rw [cleanStep, popStep.eq_def]
    split
    · exact h
    · rename_i n rest
      rw [List.reverse_cons] at h
      rcases h with ⟨ns, e⟩ | ⟨k, ns, e⟩
      · rcases List.eq_nil_or_concat ns with rfl | ⟨ns', m, rfl⟩
        · have := congrArg List.getLast? e
          simp at this
        · refine Or.inl ⟨ns', ?_⟩
          have := congrArg List.dropLast e
          rw [List.concat_eq_append] at this
          rw [show Comp.root :: (ns' ++ [m]).map Comp.normal = (Comp.root :: ns'.map .normal) ++ [.normal m] by simp] at this
          rw [List.dropLast_concat, List.dropLast_concat] at this
          exact this
      · rcases List.eq_nil_or_concat ns with rfl | ⟨ns', m, rfl⟩
        · have h1 : Comp.normal n ∈ List.replicate k Comp.parent := by
            have h2 : Comp.normal n ∈ rest.reverse ++ [Comp.normal n] := by simp
            rw [e] at h2
            simpa using h2
          have := (List.mem_replicate.mp h1).2
          cases this
        · refine Or.inr ⟨k, ns', ?_⟩
          have := congrArg List.dropLast e
          rw [List.concat_eq_append] at this
          rw [show List.replicate k Comp.parent ++ (ns' ++ [m]).map Comp.normal
            = (List.replicate k Comp.parent ++ ns'.map .normal) ++ [.normal m] by simp] at this
          simpa using this
    · rename_i hr hn
      rw [List.reverse_cons]
      rcases h with ⟨ns, e⟩ | ⟨k, ns, e⟩
      · exfalso
        rcases List.eq_nil_or_concat ns with rfl | ⟨ns', m, rfl⟩
        · have : out = [.root] := by
            have := congrArg List.reverse e
            simpa using this
          exact hr [] this
        · have : out = .normal m :: (Comp.root :: ns'.map .normal).reverse := by
            have := congrArg List.reverse e
            simpa using this
          exact hn m _ this
      · rcases List.eq_nil_or_concat ns with rfl | ⟨ns', m, rfl⟩
        · refine Or.inr ⟨k + 1, [], ?_⟩
          rw [e]
          simp [List.replicate_succ']
        · exfalso
          have : out = .normal m :: (List.replicate k Comp.parent ++ ns'.map Comp.normal).reverse := by
            have := congrArg List.reverse e
            simpa using this
          exact hn m _ this

theorem cleanFold_canon {out : List Comp} (h : Canon out.reverse) {cs : List Comp} (hcs : ∀ c ∈ cs, c ≠ .root) :
    Canon (cs.foldl cleanStep out).reverse := by
  induction cs generalizing out with
  | nil => exact h
  | cons c cs ih =>
    exact ih (cleanStep_canon h (hcs c (List.mem_cons_self ..))) fun c hc => hcs c (List.mem_cons_of_mem _ hc)

theorem components_cases (s : Text) :
    (isAbsolute s = true ∧ components s = .root :: body (split '/' s)) ∨
    (isAbsolute s = false ∧ components s = .cur :: body (split '/' s)) ∨
    (isAbsolute s = false ∧ components s = body (split '/' s)) := by
  rw [components]
  cases isAbsolute s with
  | true => exact Or.inl ⟨rfl, rfl⟩
  | false =>
    rw [if_neg (by simp)]
    split
    · exact Or.inr (Or.inl ⟨rfl, rfl⟩)
    · exact Or.inr (Or.inr ⟨rfl, rfl⟩)

theorem cleanComps_canon (s : Text) : Canon (cleanComps (components s)) := by
  have hb : ∀ c ∈ body (split '/' s), c ≠ .root := fun c hc => (body_inner hc).1
  rcases components_cases s with ⟨_, e⟩ | ⟨_, e⟩ | ⟨_, e⟩ <;> rw [e]
  · exact cleanFold_canon (out := [.root]) (Or.inl ⟨[], rfl⟩) hb
  · refine cleanFold_canon (out := []) (Or.inr ⟨0, [], rfl⟩) ?_
    intro c hc
    rcases List.mem_cons.mp hc with rfl | hc
    · simp
    · exact hb c hc
  · exact cleanFold_canon (out := []) (Or.inr ⟨0, [], rfl⟩) hb

theorem mem_cleanStep {out : List Comp} {c x : Comp} (h : x ∈ cleanStep out c) : x ∈ out ∨ x = c := by
  cases c with
  | root => rcases List.mem_cons.mp h with h | h <;> simp [h]
  | cur => exact Or.inl h
  | normal n => rcases List.mem_cons.mp h with h | h <;> simp [h]
  | parent =>
    rw [cleanStep, popStep.eq_def] at h
    split at h
    · exact Or.inl h
    · exact Or.inl (List.mem_cons_of_mem _ h)
    · rcases List.mem_cons.mp h with h | h <;> simp [h]

theorem mem_cleanFold {cs out : List Comp} {x : Comp} (h : x ∈ cs.foldl cleanStep out) : x ∈ out ∨ x ∈ cs := by
  induction cs generalizing out with
  | nil => exact Or.inl h
  | cons c cs ih =>
    rcases ih h with h | h
    · rcases mem_cleanStep h with h | h
      · exact Or.inl h
      · exact Or.inr (h ▸ List.mem_cons_self ..)
    · exact Or.inr (List.mem_cons_of_mem _ h)

theorem cleanComps_good {s : Text} {c : Comp} (h : c ∈ cleanComps (components s)) : GoodComp c := by
  rcases mem_cleanFold (List.mem_reverse.mp h) with h | h
  · cases h
  · exact components_good h

theorem canon_tail {c : Comp} {cs : List Comp} (h : Canon (c :: cs)) : ∀ x ∈ cs, x ≠ .root ∧ x ≠ .cur := by
  intro x hx
  rcases h with ⟨ns, e⟩ | ⟨k, ns, e⟩
  · injection e with _ e
    rw [e] at hx
    obtain ⟨n, _, rfl⟩ := List.mem_map.mp hx
    exact ⟨by simp, by simp⟩
  · have : x ∈ c :: cs := List.mem_cons_of_mem _ hx
    rw [e] at this
    rcases List.mem_append.mp this with h | h
    · rw [(List.mem_replicate.mp h).2]; exact ⟨by simp, by simp⟩
    · obtain ⟨n, _, rfl⟩ := List.mem_map.mp h
      exact ⟨by simp, by simp⟩

/-- The components of a cleaned path: what cleaning computed, or a dot. -/
theorem components_clean (s : Text) :
    components (clean s) = if cleanComps (components s) = [] then [.cur] else cleanComps (components s) := by
  rw [clean]
  cases h : cleanComps (components s) with
  | nil => decide
  | cons c cs =>
    rw [if_neg (by simp)]
    have hg : ∀ x ∈ c :: cs, GoodComp x := fun x hx => cleanComps_good (h ▸ hx)
    have hc := canon_tail (h ▸ cleanComps_canon s)
    exact components_collect c cs (hg c (List.mem_cons_self ..))
      fun x hx => ⟨hg x (List.mem_cons_of_mem _ hx), hc x hx⟩

theorem clean_same (s : Text) : Same (clean s) s := by
  intro cwd
  rw [denotes, components_clean]
  split
  · rename_i h
    have := walk_cleanComps cwd (components s)
    rw [h] at this
    exact this
  · exact walk_cleanComps cwd (components s)

theorem isAbsolute_iff (s : Text) : isAbsolute s = true ↔ (components s).head? = some .root := by
  rcases components_cases s with ⟨h, e⟩ | ⟨h, e⟩ | ⟨h, e⟩ <;> rw [h, e]
  · simp
  · simp
  · constructor
    · intro h; cases h
    · intro h
      have : Comp.root ∈ body (split '/' s) := List.mem_of_mem_head? h
      exact ((body_inner this).1 rfl).elim

theorem walk_names (d : Dir) (ns : List Text) : walk d (ns.map .normal) = d ++ ns := by
  induction ns generalizing d with
  | nil => simp [walk]
  | cons n ns ih => rw [List.map_cons, walk_cons, ih]; simp [follow]

theorem walk_parents (d : Dir) (k : Nat) : walk d (List.replicate k .parent) = d.take (d.length - k) := by
  induction k generalizing d with
  | zero => simp [walk]
  | succ k ih =>
    rw [List.replicate_succ, walk_cons, ih, follow, List.dropLast_eq_take, List.take_take]
    congr 1
    simp
    omega

end Tinymist.Paths

namespace Tinymist.Paths
open Pages (split split_none split_append split_ne_nil split_cases)

theorem clean_eq_of_comps {s t : Text} (h : cleanComps (components s) = cleanComps (components t)) :
    clean s = clean t := by
  rw [clean, clean, h]

/-- Canonical paths that lead to the same place from everywhere are equal. -/
theorem canon_ext {a b : List Comp} (ha : Canon a) (hb : Canon b) (ga : ∀ c ∈ a, GoodComp c)
    (gb : ∀ c ∈ b, GoodComp c) (h : ∀ d, walk d a = walk d b) : a = b := by
  have goodNames : ∀ {ns : List Text} {x : List Comp}, (∀ c ∈ x ++ ns.map Comp.normal, GoodComp c) → [] ∉ ns := by
    intro ns x hg hm
    exact (hg (.normal []) (List.mem_append_right _ (List.mem_map_of_mem hm)) [] rfl).1 rfl
  have absw : ∀ (d : Dir) (ns : List Text), walk d (Comp.root :: ns.map .normal) = ns := by
    intro d ns; rw [walk_cons, walk_names]; rfl
  have relw : ∀ (d : Dir) (k : Nat) (ns : List Text),
      walk d (List.replicate k Comp.parent ++ ns.map .normal) = d.take (d.length - k) ++ ns := by
    intro d k ns; rw [walk_append, walk_parents, walk_names]
  have take_rep : ∀ L k : Nat, (List.replicate L ([] : Text)).take ((List.replicate L ([] : Text)).length - k)
      = List.replicate (L - k) [] := by
    intro L k
    rw [List.length_replicate, List.take_replicate]
    congr 1; omega
  have relcount : ∀ (L k : Nat) (ns : List Text), [] ∉ ns →
      (walk (List.replicate L []) (List.replicate k Comp.parent ++ ns.map .normal)).count [] = L - k := by
    intro L k ns hn
    rw [relw, take_rep, List.count_append, List.count_replicate_self, List.count_eq_zero.mpr hn, Nat.add_zero]
  rcases ha with ⟨ns, rfl⟩ | ⟨k, ns, rfl⟩ <;> rcases hb with ⟨ms, rfl⟩ | ⟨j, ms, rfl⟩
  · have := h []
    rw [absw, absw] at this
    rw [this]
  · exfalso
    have h1 := h (List.replicate (j + 1) [])
    rw [absw] at h1
    have h2 := relcount (j + 1) j ms (goodNames gb)
    rw [← h1, List.count_eq_zero.mpr (goodNames (x := [.root]) ga)] at h2
    omega
  · exfalso
    have h1 := h (List.replicate (k + 1) [])
    rw [absw] at h1
    have h2 := relcount (k + 1) k ns (goodNames ga)
    rw [h1, List.count_eq_zero.mpr (goodNames (x := [.root]) gb)] at h2
    omega
  · have h0 := h (List.replicate (k + j) [])
    have h1 := relcount (k + j) k ns (goodNames ga)
    have h2 := relcount (k + j) j ms (goodNames gb)
    rw [h0, h2] at h1
    have hk : k = j := by omega
    subst hk
    rw [relw, relw] at h0
    rw [List.append_cancel_left h0]

/-! ## Relative paths -/

theorem diffLoop_nil (comps bs : List Comp) :
    diffLoop comps [] bs = some (comps ++ List.replicate bs.length .parent) := by
  induction bs generalizing comps with
  | nil => simp [diffLoop]
  | cons b bs ih => rw [diffLoop, ih]; simp [List.replicate_succ]

theorem walk_back (d : Dir) (ns : List Text) : walk (d ++ ns) (List.replicate ns.length .parent) = d := by
  rw [walk_parents]; simp

/-- Against a base of names only, the result leads to the target. -/
theorem diffLoop_names (A : List Comp) (ns : List Text) :
    ∃ r, diffLoop [] A (ns.map .normal) = some r ∧ (∀ c ∈ r, c = .parent ∨ c ∈ A) ∧
      ∀ d, walk (walk d (ns.map .normal)) r = walk d A := by
  induction ns generalizing A with
  | nil =>
    cases A with
    | nil => exact ⟨[], rfl, by simp, fun d => rfl⟩
    | cons a as => exact ⟨a :: as, rfl, fun c hc => Or.inr hc, fun d => rfl⟩
  | cons n ns ih =>
    cases A with
    | nil =>
      refine ⟨_, diffLoop_nil _ _, ?_, ?_⟩
      · intro c hc; left; simpa using hc
      · intro d
        rw [walk_names, List.nil_append, List.length_map, walk_back]; rfl
    | cons a as =>
      by_cases hab : a = .normal n
      · subst hab
        obtain ⟨r, h1, h2, h3⟩ := ih as
        refine ⟨r, ?_, ?_, ?_⟩
        · rw [List.map_cons, diffLoop, if_pos ⟨rfl, rfl⟩]; exact h1
        · intro c hc
          rcases h2 c hc with h | h
          · exact Or.inl h
          · exact Or.inr (List.mem_cons_of_mem _ h)
        · intro d; exact h3 (follow d (.normal n))
      · refine ⟨Comp.parent :: (ns.map Comp.normal).map (fun _ => Comp.parent) ++ a :: as, ?_, ?_, ?_⟩
        · rw [List.map_cons, diffLoop, if_neg (fun h => hab h.2), if_neg (by simp), if_neg (by simp)]; rfl
        · intro c hc
          rcases List.mem_append.mp hc with h | h
          · left
            rcases List.mem_cons.mp h with h | h
            · exact h
            · obtain ⟨_, _, h⟩ := List.mem_map.mp h; exact h.symm
          · exact Or.inr h
        · intro d
          have e : Comp.parent :: (ns.map Comp.normal).map (fun _ => Comp.parent)
              = List.replicate (n :: ns).length .parent := by
            rw [List.length_cons, List.replicate_succ]
            congr 1
            clear ih hab
            induction ns with
            | nil => rfl
            | cons m ns ih => rw [List.map_cons, List.map_cons, ih]; rfl
          rw [e, walk_append, walk_names, walk_back]

/-- Common leading `..` are skipped. -/
theorem diffLoop_parents (k : Nat) (A B : List Comp) :
    diffLoop [] (List.replicate k .parent ++ A) (List.replicate k .parent ++ B) = diffLoop [] A B := by
  induction k with
  | zero => rfl
  | succ k ih => rw [List.replicate_succ, List.cons_append, List.cons_append, diffLoop, if_pos ⟨rfl, rfl⟩, ih]

theorem diffLoop_root (A B : List Comp) : diffLoop [] (.root :: A) (.root :: B) = diffLoop [] A B := by
  rw [diffLoop, if_pos ⟨rfl, rfl⟩]

/-- The components `diff` works on: cleaned, a lone dot, or nothing for the empty path. -/
theorem cleanForDiff_comps (s : Text) :
    (components (cleanForDiff s) = [.cur] ∧ cleanComps (components s) = []) ∨
      (components (cleanForDiff s) = cleanComps (components s) ∧ (s ≠ [] → cleanComps (components s) ≠ [])) := by
  rw [cleanForDiff]
  by_cases h : Comp.parent ∈ components s ∨ Comp.cur ∈ components s
  · rw [if_pos h, components_clean]
    by_cases h0 : cleanComps (components s) = []
    · rw [if_pos h0]; exact Or.inl ⟨rfl, h0⟩
    · rw [if_neg h0]; exact Or.inr ⟨rfl, fun _ => h0⟩
  · rw [if_neg h]
    right
    rw [not_or] at h
    have keep : ∀ (cs out : List Comp), Comp.parent ∉ cs → Comp.cur ∉ cs → cs.foldl cleanStep out = cs.reverse ++ out := by
      intro cs
      induction cs with
      | nil => intros; rfl
      | cons c cs ih =>
        intro out h1 h2
        rw [List.foldl_cons, ih _ (fun hc => h1 (List.mem_cons_of_mem _ hc)) (fun hc => h2 (List.mem_cons_of_mem _ hc))]
        cases c with
        | root => simp [cleanStep]
        | cur => exact (h2 (List.mem_cons_self ..)).elim
        | parent => exact (h1 (List.mem_cons_self ..)).elim
        | normal n => simp [cleanStep]
    have e : cleanComps (components s) = components s := by
      rw [cleanComps, keep _ _ h.1 h.2]; simp
    rw [e]
    refine ⟨rfl, ?_⟩
    intro hs
    rcases components_cases s with ⟨_, e'⟩ | ⟨_, e'⟩ | ⟨ha, e'⟩
    · rw [e']; simp
    · rw [e']; simp
    · rw [e']
      intro hb
      -- a relative path with no component is empty
      cases s with
      | nil => exact hs rfl
      | cons c s =>
        have hc : c ≠ '/' := by
          intro e; rw [e] at ha; exact absurd ha (by simp [isAbsolute])
        have hsp : ∃ p ps, split '/' (c :: s) = (c :: p) :: ps := by
          rw [split, if_neg hc]
          cases hq : split '/' s with
          | nil => exact (split_ne_nil _ _ hq).elim
          | cons q qs => exact ⟨q, qs, rfl⟩
        obtain ⟨p, ps, hsp⟩ := hsp
        by_cases hdot : c :: p = ['.']
        · have : components (c :: s) = .cur :: body (split '/' (c :: s)) := by
            rw [components, ha, hsp]; simp [hdot]
          rw [e'] at this
          have := congrArg List.length this
          simp at this
        · rw [hsp] at hb
          have hmem : toComp (c :: p) ∈ body ((c :: p) :: ps) := by
            refine List.mem_map_of_mem (List.mem_filter.mpr ⟨List.mem_cons_self .., ?_⟩)
            simp only [decide_eq_true_eq]
            exact ⟨by simp, hdot⟩
          rw [hb] at hmem
          cases hmem

theorem cleanFold_root {cs out : List Comp} (h : out.getLast? = some .root) :
    (cs.foldl cleanStep out).getLast? = some .root := by
  induction cs generalizing out with
  | nil => exact h
  | cons c cs ih =>
    refine ih ?_
    have push : ∀ x, (x :: out).getLast? = some .root := by
      intro x
      rw [List.getLast?_cons, h]; rfl
    cases c with
    | root => exact push _
    | cur => exact h
    | normal n => exact push _
    | parent =>
      rw [cleanStep, popStep.eq_def]
      split
      · exact h
      · rename_i n rest
        cases rest with
        | nil => cases h
        | cons x xs => rw [List.getLast?_cons_cons] at h; exact h
      · exact push _

theorem cleanComps_root {s : Text} : (cleanComps (components s)).head? = some .root ↔ isAbsolute s = true := by
  constructor
  · intro h
    have hm := List.mem_of_mem_head? h
    rcases mem_cleanFold (List.mem_reverse.mp hm) with hm | hm
    · cases hm
    · rcases components_cases s with ⟨h, e⟩ | ⟨h, e⟩ | ⟨h, e⟩
      · exact h
      · rw [e] at hm
        rcases List.mem_cons.mp hm with hm | hm
        · cases hm
        · exact ((body_inner hm).1 rfl).elim
      · rw [e] at hm
        exact ((body_inner hm).1 rfl).elim
  · intro h
    have e : components s = .root :: body (split '/' s) := by rw [components, h]; rfl
    rw [cleanComps, List.head?_reverse, e]
    exact cleanFold_root (out := [.root]) rfl

theorem isAbsolute_cleanForDiff (s : Text) : isAbsolute (cleanForDiff s) = isAbsolute s := by
  have : isAbsolute (cleanForDiff s) = true ↔ isAbsolute s = true := by
    rw [isAbsolute_iff, ← cleanComps_root]
    rcases cleanForDiff_comps s with ⟨h1, h2⟩ | ⟨h1, _⟩
    · rw [h1, h2]; simp
    · rw [h1]
  cases h1 : isAbsolute (cleanForDiff s) <;> cases h2 : isAbsolute s <;> simp_all

theorem denotes_cleanForDiff (cwd : Dir) (s : Text) : denotes cwd (cleanForDiff s) = denotes cwd s := by
  rw [cleanForDiff]
  split
  · exact clean_same s cwd
  · rfl

/-! ## Printed paths -/

def needsSlash (res : Text) : Bool := !(res == [] || res.getLast? == some '/')

theorem slashStep_eq {res : Text} {c : Comp} (hg : GoodComp c) (hr : c ≠ .root) (hc : c ≠ .cur) :
    slashStep (res, needsSlash res) c = (join res (compText c), needsSlash (join res (compText c))) := by
  have ha := compText_not_absolute hg hr
  have hlast : ∀ x : Text, needsSlash (x ++ compText c) = true := by
    intro x
    rw [needsSlash]
    have hne := compText_ne_nil hg
    have hl : (compText c).getLast? ≠ some '/' := by
      intro h
      have hm := List.mem_of_getLast? h
      cases c with
      | root => exact hr rfl
      | cur => exact hc rfl
      | parent => exact absurd hm (by decide)
      | normal n => exact (hg n rfl).2.1 hm
    have hl' : (x ++ compText c).getLast? = (compText c).getLast? := by
      rw [List.getLast?_append]
      cases h : (compText c).getLast? with
      | none => exact (hne (List.getLast?_eq_none_iff.mp h)).elim
      | some y => rfl
    rw [hl']
    simp [hne, hl]
  have hj : join res (compText c) = res ++ (if needsSlash res then ['/'] else []) ++ compText c := by
    rw [join, ha, needsSlash]
    by_cases h1 : res = []
    · simp [h1]
    · by_cases h2 : res.getLast? = some '/'
      · simp [h2]
      · simp [h1, h2]
  have : slashStep (res, needsSlash res) c = (res ++ (if needsSlash res then ['/'] else []) ++ compText c, true) := by
    cases c with
    | root => exact (hr rfl).elim
    | cur => exact (hc rfl).elim
    | parent => rfl
    | normal n => rfl
  rw [this, hj, hlast]

theorem slashFold_eq (cs : List Comp) (h : ∀ c ∈ cs, GoodComp c ∧ c ≠ .root ∧ c ≠ .cur) (res : Text) :
    (cs.foldl slashStep (res, needsSlash res)).1 = cs.foldl (fun p c => join p (compText c)) res := by
  induction cs generalizing res with
  | nil => rfl
  | cons c cs ih =>
    obtain ⟨h1, h2, h3⟩ := h c (List.mem_cons_self ..)
    rw [List.foldl_cons, slashStep_eq h1 h2 h3, ih fun c hc => h c (List.mem_cons_of_mem _ hc)]
    rfl

theorem body_ok (s : Text) : ∀ c ∈ body (split '/' s), GoodComp c ∧ c ≠ .root ∧ c ≠ .cur :=
  fun _ hc => ⟨body_split_good hc, body_inner hc⟩

theorem slash_eq_collect (s : Text) :
    ((components s).foldl slashStep ([], false)).1 = collect ((components s).filter (· ≠ .cur)) := by
  have hf : (body (split '/' s)).filter (· ≠ Comp.cur) = body (split '/' s) :=
    List.filter_eq_self.mpr fun c hc => by simp [(body_inner hc).2]
  rcases components_cases s with ⟨_, e⟩ | ⟨_, e⟩ | ⟨_, e⟩ <;> rw [e]
  · rw [List.filter_cons_of_pos (by simp), hf]
    exact slashFold_eq _ (body_ok s) ['/']
  · rw [List.filter_cons_of_neg (by simp), hf]
    exact slashFold_eq _ (body_ok s) []
  · rw [hf]
    exact slashFold_eq _ (body_ok s) []

theorem parts_join {a n p : Text} (hn : '/' ∉ n) (h : p ∈ split '/' (join a n)) : p ∈ split '/' a ∨ p = n := by
  have hs : split '/' n = [n] := split_none hn
  have ha : isAbsolute n = false := by
    cases n with
    | nil => rfl
    | cons c n =>
      have : c ≠ '/' := fun e => hn (by simp [e])
      simp [isAbsolute, this]
  rw [join, ha] at h
  simp only [Bool.false_eq_true, if_false] at h
  by_cases h1 : a = []
  · subst h1
    rw [if_pos (Or.inl rfl), List.nil_append, hs] at h
    exact Or.inr (by simpa using h)
  · by_cases h2 : a.getLast? = some '/'
    · rw [if_pos (Or.inr h2)] at h
      obtain ⟨a', rfl⟩ : ∃ a', a = a' ++ ['/'] := List.getLast?_eq_some_iff.mp h2
      have e2 : split '/' (a' ++ ['/']) = split '/' a' ++ [[]] := split_append_sep '/' a' []
      rw [List.append_assoc] at h
      have e1 : split '/' (a' ++ (['/'] ++ n)) = split '/' a' ++ split '/' n := split_append_sep '/' a' n
      rw [e1, hs] at h
      rw [e2]
      rcases List.mem_append.mp h with h | h
      · exact Or.inl (List.mem_append_left _ h)
      · exact Or.inr (by simpa using h)
    · rw [if_neg (by simp [h1, h2]), split_append_sep, hs] at h
      rcases List.mem_append.mp h with h | h
      · exact Or.inl h
      · exact Or.inr (by simpa using h)

theorem parts_collect_from (cs : List Comp) (h : ∀ c ∈ cs, GoodComp c ∧ c ≠ .root ∧ c ≠ .cur) (res p : Text)
    (hp : p ∈ split '/' (cs.foldl (fun p c => join p (compText c)) res)) :
    p ∈ split '/' res ∨ ∃ c ∈ cs, p = compText c := by
  induction cs generalizing res with
  | nil => exact Or.inl hp
  | cons c cs ih =>
    obtain ⟨h1, h2, h3⟩ := h c (List.mem_cons_self ..)
    rcases ih (fun c hc => h c (List.mem_cons_of_mem _ hc)) _ hp with h' | ⟨c', hc', e⟩
    · have hn : '/' ∉ compText c := by
        cases c with
        | root => exact (h2 rfl).elim
        | cur => decide
        | parent => decide
        | normal n => exact (h1 n rfl).2.1
      rcases parts_join hn h' with h' | h'
      · exact Or.inl h'
      · exact Or.inr ⟨c, List.mem_cons_self .., h'⟩
    · exact Or.inr ⟨c', List.mem_cons_of_mem _ hc', e⟩

theorem parts_collect (s p : Text) (hp : p ∈ split '/' (collect ((components s).filter (· ≠ .cur)))) :
    p = [] ∨ p = ['.', '.'] ∨ p ∈ split '/' s ∧ p ≠ ['.'] := by
  have hf : (body (split '/' s)).filter (· ≠ Comp.cur) = body (split '/' s) :=
    List.filter_eq_self.mpr fun c hc => by simp [(body_inner hc).2]
  have fin : ∀ c ∈ body (split '/' s), p = compText c → p = [] ∨ p = ['.', '.'] ∨ p ∈ split '/' s ∧ p ≠ ['.'] := by
    intro c hc e
    rcases mem_body hc with rfl | ⟨n, hn, rfl, _, h2, _⟩
    · exact Or.inr (Or.inl e)
    · exact Or.inr (Or.inr ⟨e ▸ hn, e ▸ h2⟩)
  rcases components_cases s with ⟨_, e⟩ | ⟨_, e⟩ | ⟨_, e⟩ <;> rw [e] at hp
  · rw [List.filter_cons_of_pos (by simp), hf] at hp
    rcases parts_collect_from _ (body_ok s) ['/'] p hp with h | ⟨c, hc, e⟩
    · left; revert h; simp [split]
    · exact fin c hc e
  · rw [List.filter_cons_of_neg (by simp), hf] at hp
    rcases parts_collect_from _ (body_ok s) [] p hp with h | ⟨c, hc, e⟩
    · left; revert h; simp [split]
    · exact fin c hc e
  · rw [hf] at hp
    rcases parts_collect_from _ (body_ok s) [] p hp with h | ⟨c, hc, e⟩
    · left; revert h; simp [split]
    · exact fin c hc e

theorem collect_eq_nil {cs : List Comp} (h : ∀ c ∈ cs, GoodComp c) : collect cs = [] → cs = [] := by
  intro he
  cases cs with
  | nil => rfl
  | cons c cs =>
    exfalso
    have grow : ∀ (xs : List Comp) (p : Text), p ≠ [] → xs.foldl (fun p c => join p (compText c)) p ≠ [] := by
      intro xs
      induction xs with
      | nil => intro p hp; exact hp
      | cons x xs ih => intro p hp; exact ih _ (join_ne_nil (Or.inl hp))
    exact grow cs _ (join_ne_nil (Or.inr (compText_ne_nil (h c (List.mem_cons_self ..))))) he

theorem mem_join {a b : Text} {x : Char} (h : x ∈ join a b) : x ∈ a ∨ x = '/' ∨ x ∈ b := by
  rw [join] at h
  split at h
  · exact Or.inr (Or.inr h)
  · split at h
    · rcases List.mem_append.mp h with h | h
      · exact Or.inl h
      · exact Or.inr (Or.inr h)
    · rcases List.mem_append.mp h with h | h
      · exact Or.inl h
      · rcases List.mem_cons.mp h with h | h
        · exact Or.inr (Or.inl h)
        · exact Or.inr (Or.inr h)

end Tinymist.Paths
