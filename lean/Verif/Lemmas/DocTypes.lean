import Verif.Spec.DocTypes
import Verif.Lemmas.Pages
/-! Fuel, names and lists of types in doc comments. -/

namespace Tinymist.DocTypes
open Spec

variable {types : Text → Option Text} {m : Mod}

theorem builtin_iff {x : Text} {t : Ty} : builtinOf types x = some t ↔ Builtin types x t := by
  constructor
  · intro h
    unfold builtinOf at h
    split at h
    · rename_i e; subst e; cases h; exact .any
    split at h
    · rename_i e; subst e; cases h; exact .bool
    split at h
    · rename_i e; subst e; cases h; exact .boolean
    split at h
    · rename_i e; subst e; cases h; exact .false
    split at h
    · rename_i e; subst e; cases h; exact .true
    rename_i h1 h2 h3 h4 h5
    obtain ⟨n, hn, rfl⟩ := Option.map_eq_some_iff.mp h
    refine .type x n ?_ hn
    simp only [List.mem_cons, List.not_mem_nil, or_false, not_or]
    exact ⟨h1, h2, h3, h4, h5⟩
  · intro h
    cases h with
    | any => rfl
    | bool => rfl
    | boolean => rfl
    | false => rfl
    | true => rfl
    | type _ n hx h =>
      simp only [List.mem_cons, List.not_mem_nil, or_false, not_or] at hx
      obtain ⟨h1, h2, h3, h4, h5⟩ := hx
      unfold builtinOf
      have h1 : x ≠ ['a', 'n', 'y'] := h1
      have h2 : x ≠ ['b', 'o', 'o', 'l'] := h2
      have h3 : x ≠ ['b', 'o', 'o', 'l', 'e', 'a', 'n'] := h3
      have h4 : x ≠ ['f', 'a', 'l', 's', 'e'] := h4
      have h5 : x ≠ ['t', 'r', 'u', 'e'] := h5
      rw [if_neg h1, if_neg h2, if_neg h3, if_neg h4, if_neg h5, h]
      rfl

theorem builtin_none {x : Text} : builtinOf types x = none ↔ ¬∃ t, Builtin types x t := by
  constructor
  · rintro h ⟨t, ht⟩
    rw [builtin_iff.mpr ht] at h
    cases h
  · intro h
    cases hb : builtinOf types x with
    | none => rfl
    | some t => exact absurd ⟨t, builtin_iff.mp hb⟩ h

/-! ## More fuel -/

def Le (c c' : Check) : Prop := ∀ e st r, c e st = some r → c' e st = some r

theorem checkIdent_le {c c' : Check} (h : Le c c') {x : Text} {st : St} {r : Option Ty × St} (hr : checkIdent types m c x st = some r) :
    checkIdent types m c' x st = some r := by
  unfold checkIdent at hr ⊢
  revert hr
  cases builtinOf types x with
  | some t => exact id
  | none =>
    cases find x st.locals with
    | some t => exact id
    | none =>
      cases find x st.globals with
      | some t => exact id
      | none =>
        cases m x with
        | none => exact id
        | some o =>
          cases o with
          | none => exact id
          | some e =>
            intro hr
            obtain ⟨q, hq, hr⟩ := Option.map_eq_some_iff.mp hr
            exact Option.map_eq_some_iff.mpr ⟨q, h _ _ _ hq, hr⟩

theorem checkAll_le {c c' : Check} (h : Le c c') : ∀ {es : List Expr} {st : St} {r : Option (List Ty) × St}, checkAll c es st = some r →
    checkAll c' es st = some r := by
  intro es
  induction es with
  | nil => exact fun h => h
  | cons e es ih =>
    intro st r hr
    unfold checkAll at hr ⊢
    cases hc : c e st with
    | none => rw [hc] at hr; cases hr
    | some p =>
      rw [hc] at hr
      rw [h _ _ _ hc]
      obtain ⟨o, st2⟩ := p
      cases o with
      | none => exact hr
      | some t =>
        simp only at hr ⊢
        cases ha : checkAll c es st2 with
        | none => rw [ha] at hr; cases hr
        | some q =>
          rw [ha] at hr
          rw [ih ha]
          exact hr

theorem checkParams_le {c c' : Check} (h : Le c c') : ∀ {ps : List Param} {s : Sig} {st : St} {r : Sig × St}, checkParams c ps s st = some r →
    checkParams c' ps s st = some r := by
  intro ps
  induction ps with
  | nil => exact fun h => h
  | cons p ps ih =>
    intro s st r hr
    cases p with
    | pos n =>
      cases n with
      | none => exact ih hr
      | some n => exact ih hr
    | named n e =>
      unfold checkParams at hr ⊢
      cases hc : c e st with
      | none => rw [hc] at hr; cases hr
      | some q =>
        rw [hc] at hr
        rw [h _ _ _ hc]
        exact ih hr
    | spread n =>
      cases n with
      | none => exact ih hr
      | some n => exact ih hr

theorem checkClosure_le {c c' : Check} (h : Le c c') {ps : List Param} {b : Expr} {st : St} {r : Option Ty × St}
    (hr : checkClosure c ps b st = some r) : checkClosure c' ps b st = some r := by
  unfold checkClosure at hr ⊢
  cases hp : checkParams c ps ⟨[], [], none⟩ st with
  | none => rw [hp] at hr; cases hr
  | some q =>
    rw [hp] at hr
    rw [checkParams_le h hp]
    simp only at hr ⊢
    cases hb : c b q.2 with
    | none => rw [hb] at hr; cases hr
    | some p =>
      rw [hb] at hr
      rw [h _ _ _ hb]
      exact hr

theorem check_step (n : Nat) : Le (check types m n) (check types m (n + 1)) := by
  induction n with
  | zero =>
    intro e st r h
    cases h
  | succ n ih =>
    intro e st r h
    unfold check at h ⊢
    cases e with
    | ident x => exact checkIdent_le ih h
    | str s => exact h
    | lit v => exact h
    | binary o l r' =>
      obtain ⟨q, hq, hr⟩ := Option.map_eq_some_iff.mp h
      exact Option.map_eq_some_iff.mpr ⟨q, checkAll_le ih hq, hr⟩
    | call c f =>
      cases c with
      | none => exact h
      | some c =>
        simp only at h ⊢
        split at h
        · rename_i hc
          rw [if_pos hc]
          cases f with
          | none => exact h
          | some e =>
            obtain ⟨q, hq, hr⟩ := Option.map_eq_some_iff.mp h
            exact Option.map_eq_some_iff.mpr ⟨q, ih _ _ _ hq, hr⟩
        · rename_i hc
          rw [if_neg hc]
          exact h
    | closure ps b => exact checkClosure_le ih h
    | other => exact h

/-- More fuel does not change a result. -/
theorem check_le {n k : Nat} (h : n ≤ k) : Le (check types m n) (check types m k) := by
  induction h with
  | refl => exact fun _ _ _ h => h
  | step _ ih => exact fun e st r hr => check_step _ e st r (ih e st r hr)

/-! ## Enough fuel -/

def Enough (types : Text → Option Text) (m : Mod) (e : Expr) : Prop := ∃ N, ∀ n, N ≤ n → ∀ st, (check types m n e st).isSome = true

theorem enough_list {es : List Expr} (h : ∀ e ∈ es, Enough types m e) :
    ∃ N, ∀ n, N ≤ n → ∀ e ∈ es, ∀ st, (check types m n e st).isSome = true := by
  induction es with
  | nil => exact ⟨0, fun _ _ e he => by cases he⟩
  | cons e es ih =>
    obtain ⟨N1, h1⟩ := h e (List.mem_cons_self ..)
    obtain ⟨N2, h2⟩ := ih fun x hx => h x (List.mem_cons_of_mem _ hx)
    refine ⟨N1 + N2, ?_⟩
    intro n hn x hx st
    rcases List.mem_cons.mp hx with rfl | hx
    · exact h1 n (by omega) st
    · exact h2 n (by omega) x hx st

theorem checkAll_some {c : Check} {es : List Expr} (h : ∀ e ∈ es, ∀ st, (c e st).isSome = true) : ∀ st, (checkAll c es st).isSome = true := by
  induction es with
  | nil => exact fun _ => rfl
  | cons e es ih =>
    intro st
    obtain ⟨p, hp⟩ := Option.isSome_iff_exists.mp (h e (List.mem_cons_self ..) st)
    unfold checkAll
    rw [hp]
    obtain ⟨o, st2⟩ := p
    cases o with
    | none => rfl
    | some t =>
      obtain ⟨q, hq⟩ := Option.isSome_iff_exists.mp (ih (fun x hx => h x (List.mem_cons_of_mem _ hx)) st2)
      simp only [hq]
      obtain ⟨o2, st3⟩ := q
      cases o2 <;> rfl

theorem checkParams_some {c : Check} {ps : List Param} (h : ∀ n e, Param.named n e ∈ ps → ∀ st, (c e st).isSome = true) :
    ∀ s st, (checkParams c ps s st).isSome = true := by
  induction ps with
  | nil => exact fun _ _ => rfl
  | cons p ps ih =>
    have ih := ih fun n e he => h n e (List.mem_cons_of_mem _ he)
    intro s st
    cases p with
    | pos n =>
      cases n with
      | none => exact ih _ _
      | some n => exact ih _ _
    | named n e =>
      obtain ⟨p, hp⟩ := Option.isSome_iff_exists.mp (h n e (List.mem_cons_self ..) st)
      unfold checkParams
      rw [hp]
      exact ih _ _
    | spread n =>
      cases n with
      | none => exact ih _ _
      | some n => exact ih _ _

theorem succ_of_le {N n : Nat} (h : N + 1 ≤ n) : ∃ k, n = k + 1 ∧ N ≤ k := ⟨n - 1, by omega, by omega⟩

/-- All expressions whose names are known to be resolved are. -/
def Good (types : Text → Option Text) (m : Mod) (x : Text) : Prop := ∀ e, m x = some (some e) → Enough types m e

theorem enough_ident {x : Text} (h : Good types m x) : Enough types m (.ident x) := by
  have key : ∃ N, ∀ n, N ≤ n → ∀ e, m x = some (some e) → ∀ st, (check types m n e st).isSome = true := by
    cases hm : m x with
    | none => exact ⟨0, fun _ _ e he => by cases he⟩
    | some o =>
      cases o with
      | none => exact ⟨0, fun _ _ e he => by cases he⟩
      | some e =>
        obtain ⟨N, hN⟩ := h e hm
        refine ⟨N, fun n hn e' he' => ?_⟩
        injection he' with he'
        injection he' with he'
        subst he'
        exact hN n hn
  obtain ⟨N, hN⟩ := key
  refine ⟨N + 1, ?_⟩
  intro n hn st
  obtain ⟨k, rfl, hk⟩ := succ_of_le hn
  show (checkIdent types m (check types m k) x st).isSome = true
  unfold checkIdent
  cases builtinOf types x with
  | some t => rfl
  | none =>
    cases find x st.locals with
    | some t => rfl
    | none =>
      cases find x st.globals with
      | some t => rfl
      | none =>
        cases hm : m x with
        | none => rfl
        | some o =>
          cases o with
          | none => rfl
          | some e =>
            simp only [Option.isSome_map]
            exact hN k hk e hm st

mutual
theorem enough_expr : ∀ (e : Expr), (∀ y ∈ names e, Good types m y) → Enough types m e
  | .ident x, h => enough_ident (h x (by simp [names]))
  | .str s, _ => ⟨1, fun n hn st => by obtain ⟨k, rfl, _⟩ := succ_of_le hn; rfl⟩
  | .lit s, _ => ⟨1, fun n hn st => by obtain ⟨k, rfl, _⟩ := succ_of_le hn; rfl⟩
  | .other, _ => ⟨1, fun n hn st => by obtain ⟨k, rfl, _⟩ := succ_of_le hn; rfl⟩
  | .call none f, _ => ⟨1, fun n hn st => by obtain ⟨k, rfl, _⟩ := succ_of_le hn; rfl⟩
  | .call (some c) none, _ => by
    refine ⟨1, fun n hn st => ?_⟩
    obtain ⟨k, rfl, _⟩ := succ_of_le hn
    unfold check
    simp only
    split
    · rfl
    · split <;> rfl
  | .call (some c) (some e), h => by
    obtain ⟨N, hN⟩ := enough_expr e (fun y hy => h y (by simpa [names] using hy))
    refine ⟨N + 1, fun n hn st => ?_⟩
    obtain ⟨k, rfl, hk⟩ := succ_of_le hn
    unfold check
    simp only
    split
    · rw [Option.isSome_map]
      exact hN k hk st
    · split
      · split <;> rfl
      · rfl
  | .binary o l r, h => by
    have hl := enough_expr l (fun y hy => h y (by simp [names, hy]))
    have hr := enough_ops r (fun y hy => h y (by simp [names, hy]))
    obtain ⟨N, hN⟩ := enough_list (es := l :: operands r) (by
      intro e he
      rcases List.mem_cons.mp he with rfl | he
      · exact hl
      · exact hr e he)
    refine ⟨N + 1, fun n hn st => ?_⟩
    obtain ⟨k, rfl, hk⟩ := succ_of_le hn
    unfold check
    simp only
    rw [Option.isSome_map]
    exact checkAll_some (hN k hk) st
  | .closure ps b, h => by
    obtain ⟨N1, h1⟩ := enough_expr b (fun y hy => h y (by simp [names, hy]))
    obtain ⟨N2, h2⟩ := enough_params ps (fun y hy => h y (by simp [names, hy]))
    refine ⟨N1 + N2 + 1, fun n hn st => ?_⟩
    obtain ⟨k, rfl, hk⟩ := succ_of_le hn
    unfold check checkClosure
    simp only
    obtain ⟨p, hp⟩ := Option.isSome_iff_exists.mp (checkParams_some (h2 k (by omega)) ⟨[], [], none⟩ st)
    rw [hp]
    simp only
    obtain ⟨q, hq⟩ := Option.isSome_iff_exists.mp (h1 k (by omega) p.2)
    rw [hq]
    rfl
termination_by e => (sizeOf e, 0)

theorem enough_ops : ∀ (r : Expr), (∀ y ∈ names r, Good types m y) → ∀ e ∈ operands r, Enough types m e
  | .binary true l r, h, e, he => by
    rw [operands] at he
    rcases List.mem_cons.mp he with he | he
    · rw [he]
      exact enough_expr l (fun y hy => h y (by simp [names, hy]))
    · exact enough_ops r (fun y hy => h y (by simp [names, hy])) e he
  | .binary false l r, h, e, he => by
    have he : e ∈ [Expr.binary false l r] := he
    rw [List.mem_singleton] at he
    rw [he]
    exact enough_expr (.binary false l r) h
  | .ident x, h, e, he => by
    have he : e ∈ [Expr.ident x] := he
    rw [List.mem_singleton] at he
    rw [he]
    exact enough_expr _ h
  | .str x, h, e, he => by
    have he : e ∈ [Expr.str x] := he
    rw [List.mem_singleton] at he
    rw [he]
    exact enough_expr _ h
  | .lit x, h, e, he => by
    have he : e ∈ [Expr.lit x] := he
    rw [List.mem_singleton] at he
    rw [he]
    exact enough_expr _ h
  | .call c f, h, e, he => by
    have he : e ∈ [Expr.call c f] := he
    rw [List.mem_singleton] at he
    rw [he]
    exact enough_expr _ h
  | .closure ps b, h, e, he => by
    have he : e ∈ [Expr.closure ps b] := he
    rw [List.mem_singleton] at he
    rw [he]
    exact enough_expr _ h
  | .other, h, e, he => by
    have he : e ∈ [Expr.other] := he
    rw [List.mem_singleton] at he
    rw [he]
    exact enough_expr _ h
termination_by e => (sizeOf e, 1)

theorem enough_params : ∀ (ps : List Param), (∀ y ∈ namesOf ps, Good types m y) →
    ∃ N, ∀ n, N ≤ n → ∀ x e, Param.named x e ∈ ps → ∀ st, (check types m n e st).isSome = true
  | [], _ => ⟨0, fun _ _ _ _ h => by cases h⟩
  | .named x e :: ps, h => by
    obtain ⟨N1, h1⟩ := enough_expr e (fun y hy => h y (by simp [namesOf, hy]))
    obtain ⟨N2, h2⟩ := enough_params ps (fun y hy => h y (by simp [namesOf, hy]))
    refine ⟨N1 + N2, fun n hn x' e' he st => ?_⟩
    rcases List.mem_cons.mp he with he | he
    · cases he
      exact h1 n (by omega) st
    · exact h2 n (by omega) x' e' he st
  | .pos o :: ps, h => by
    obtain ⟨N2, h2⟩ := enough_params ps (fun y hy => h y (by simp [namesOf, hy]))
    refine ⟨N2, fun n hn x' e' he st => ?_⟩
    rcases List.mem_cons.mp he with he | he
    · cases he
    · exact h2 n (by omega) x' e' he st
  | .spread o :: ps, h => by
    obtain ⟨N2, h2⟩ := enough_params ps (fun y hy => h y (by simp [namesOf, hy]))
    refine ⟨N2, fun n hn x' e' he st => ?_⟩
    rcases List.mem_cons.mp he with he | he
    · cases he
    · exact h2 n (by omega) x' e' he st
termination_by ps => (sizeOf ps, 0)
end

theorem good_ranked {rank : Text → Nat} (h : Ranked m rank) : ∀ k x, rank x < k → Good types m x := by
  intro k
  induction k with
  | zero => intro x hx; omega
  | succ k ih =>
    intro x hx e he
    refine enough_expr e fun y hy => ih y ?_
    have := h x e he y hy
    omega

/-! ## Lists of names -/

theorem trim_keep {a t b : Text} (ha : Pages.Blank a) (hb : Pages.Blank b) (hf : ∀ c, t.head? = some c → ¬Pages.Space c)
    (hl : ∀ c, t.getLast? = some c → ¬Pages.Space c) : Pages.trim (a ++ t ++ b) = t := by
  have ns : ∀ c, ¬Pages.Space c → Pages.isWhitespace c = false := by
    intro c hc
    cases hw : Pages.isWhitespace c with
    | false => rfl
    | true => exact absurd ((Pages.space_iff c).mp hw) hc
  by_cases hn : t = []
  · subst hn
    exact Pages.trim_eq ha hb (by intro c hc; cases hc)
  · rw [Pages.trim, List.append_assoc, Pages.dropWhile_blank ha]
    · rw [List.reverse_append, Pages.dropWhile_blank (Pages.blank_reverse hb)]
      · simp
      · intro c hc
        rw [List.head?_reverse] at hc
        exact ns c (hl c hc)
    · intro c hc
      cases t with
      | nil => exact absurd rfl hn
      | cons d t =>
        simp at hc
        exact hc ▸ ns d (hf d rfl)

theorem blank_no_comma {b : Text} (h : Pages.Blank b) : ',' ∉ b := fun hc => absurd (h _ hc) (by unfold Pages.Space; decide)

theorem listed_split {input : Text} {xs : List Text} (h : Listed input xs) : (Pages.split ',' input).map Pages.trim = xs := by
  induction h with
  | one a x b ha hb hf hl hc =>
    rw [Pages.split_none (by simp [blank_no_comma ha, blank_no_comma hb, hc])]
    rw [List.map_singleton, trim_keep ha hb hf hl]
  | more a x b rest xs ha hb hf hl hc _ ih =>
    rw [Pages.split_append (by simp [blank_no_comma ha, blank_no_comma hb, hc]), List.map_cons, trim_keep ha hb hf hl, ih]

theorem joined_iff {ts : List Ty} {t : Ty} : fromTypes ts = t ↔ Joined ts t := by
  constructor
  · rintro rfl
    match ts with
    | [] => exact .none
    | [t] => exact .one t
    | a :: b :: ts => exact .many a b ts
  · intro h
    cases h <;> rfl

end Tinymist.DocTypes
