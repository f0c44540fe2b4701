import Verif.Spec.Naming
import Verif.Props.Groups
import Verif.Props.Context

/-!
# Nothing is offered for a name that is being made up (C182)
-/

namespace Tinymist.Naming

open Mode (Kind)
open Pointer
open Groups (Got groups)

variable {isIdent : Text → Bool} {numeric idStart idContinue : Char → Bool} {text : Text} {p : Place} {cursor : Nat} {explicit punc : Bool}

/-! ## Helpers -/

theorem isPattern_iff {k : Kind} : isPattern k = true ↔ Bindable k := by
  simp [isPattern, Bindable, or_assoc]

theorem class_ident {t : Text} {f : Frame} {up : List Frame} (ht : t ≠ []) (hf : f.kind ≠ .fieldAccess) :
    classify isIdent ⟨.leaf .ident t, f :: up⟩ cursor = some (.ident ⟨.leaf .ident t, f :: up⟩) :=
  classify_name ⟨t, ht, .inl rfl⟩ (.variable fun h => hf h.1) cursor

theorem offered_ident {t : Text} {f : Frame} {up : List Frame} (ht : t ≠ []) (hf : f.kind ≠ .fieldAccess) :
    offered isIdent numeric idStart idContinue text ⟨.leaf .ident t, f :: up⟩ cursor explicit punc =
      if madeUp ⟨.leaf .ident t, f :: up⟩ then none else
        some (groups idStart idContinue text ⟨.leaf .ident t, f :: up⟩ cursor explicit punc) := by
  unfold offered
  simp only [class_ident ht hf]
  have h1 : skipsName (some (.ident ⟨.leaf .ident t, f :: up⟩)) = madeUp ⟨.leaf .ident t, f :: up⟩ := rfl
  have : skipsNumber numeric (some (.ident ⟨.leaf .ident t, f :: up⟩)) ⟨.leaf .ident t, f :: up⟩ = false := by
    simp [skipsNumber, Tree.kind]
  rw [h1, this, Bool.or_false]

theorem ident_expr (t : Text) : isExpr (Tree.leaf .ident t).kind = true := rfl

theorem find_pattern {l r : List Tree} {t : Tree} (hl : ∀ x ∈ l, ¬ Bindable x.kind) (ht : Bindable t.kind) :
    (l ++ t :: r).find? (fun x => isPattern x.kind) = some t := by
  rw [List.find?_eq_some_iff_append]
  refine ⟨isPattern_iff.2 ht, l, r, rfl, fun x hx => ?_⟩
  have : ¬ isPattern x.kind = true := fun h => hl x hx (isPattern_iff.1 h)
  simpa using this

theorem no_exprs {l : List Tree} (hl : ∀ x ∈ l, ¬ Bindable x.kind) : (l.filter fun x => isExpr x.kind) = [] := by
  rw [List.filter_eq_nil_iff]
  exact fun x hx h => hl x hx (.inl h)

theorem mode_code {t : Text} {f : Frame} {up : List Frame} (hf : Mode.kindMode f.kind = some .code) : modeAt (.leaf .ident t) (f :: up) = .code := by
  rw [modeAt]
  have : Mode.kindMode (Tree.leaf .ident t).kind = none := rfl
  rw [this]
  simp only
  split
  · rfl
  · cases up with
    | nil => rw [modeAt]; simp only [Tree.kind, hf, Option.getD_some]
    | cons g up => rw [modeAt]; simp only [Tree.kind, hf]

/-! ## Names that are made up -/

/-- **C182.** While the name of a variable is typed, nothing is offered, whether there is a value behind it or not. -/
theorem variable_quiet_partial {t : Text} {l r : List Tree} {up : List Frame} (ht : t ≠ []) (hl : ∀ x ∈ l, ¬ Bindable x.kind) :
    offered isIdent numeric idStart idContinue text ⟨.leaf .ident t, ⟨.letBinding, l, r⟩ :: up⟩ cursor explicit punc = none := by
  rw [offered_ident ht (by simp), if_pos]
  simp only [madeUp, isInit, initIndex, find_pattern (r := r) hl (t := .leaf .ident t) (.inl rfl), no_exprs hl]
  simp [Tree.kind]

/-- **C182.** While the name of a function is typed that has a body, nothing is offered. -/
theorem function_quiet_partial {t : Text} {l r : List Tree} {up : List Frame} (ht : t ≠ []) (hb : ∃ x ∈ r, isExpr x.kind = true) :
    offered isIdent numeric idStart idContinue text ⟨.leaf .ident t, ⟨.closure, l, r⟩ :: up⟩ cursor explicit punc = none := by
  rw [offered_ident ht (by simp), if_pos]
  obtain ⟨x, hx, h⟩ := hb
  simp only [madeUp, isBody, ident_expr]
  simp
  exact ⟨x, hx, h⟩

/-- **C182**, violated: while the name of a function is typed whose body is still to come, names are offered for it. -/
theorem function_without_body {t : Text} {r : List Tree} {up : List Frame} (ht : t ≠ []) (hb : ∀ x ∈ r, isExpr x.kind = false)
    (hs : Context.surrounding ⟨.leaf .ident t, ⟨.closure, [], r⟩ :: up⟩ = .regular) :
    ∃ g, offered isIdent numeric idStart idContinue text ⟨.leaf .ident t, ⟨.closure, [], r⟩ :: up⟩ cursor explicit punc = some g ∧
      Groups.Offer.names ∈ g.offers ∧ g.start = some (Pointer.offset (⟨.closure, [], r⟩ :: up)) := by
  rw [offered_ident ht (by simp), if_neg]
  · obtain ⟨l, h, -⟩ := Groups.code_name (p := ⟨.leaf .ident t, ⟨.closure, [], r⟩ :: up⟩) (idStart := idStart) (idContinue := idContinue)
      (text := text) (cursor := cursor) (explicit := explicit) (punc := punc) (mode_code rfl) hs rfl
    exact ⟨_, rfl, by rw [h]; simp, by rw [h]; rfl⟩
  · simp only [madeUp, isBody, ident_expr]
    simp
    exact hb

/-- **C182**, violated: while the variable of a loop, the name for a part of a value or the name for a module is typed, names are offered
for it. -/
theorem others_offered {p : Place} (h : MadeUp p) (hk : ∀ f up, p.up = f :: up → f.kind ∉ [Kind.letBinding, .closure])
    (hs : Context.surrounding p = .regular) :
    ∃ g, offered isIdent numeric idStart idContinue text p cursor explicit punc = some g ∧ Groups.Offer.names ∈ g.offers ∧
      g.start = some p.offset := by
  have key : ∀ {t : Text} {f : Frame} {up : List Frame}, t ≠ [] → f.kind ∈ [Kind.destructuring, .forLoop, .moduleImport] →
      Context.surrounding ⟨.leaf .ident t, f :: up⟩ = .regular →
      ∃ g, offered isIdent numeric idStart idContinue text ⟨.leaf .ident t, f :: up⟩ cursor explicit punc = some g ∧
        Groups.Offer.names ∈ g.offers ∧ g.start = some (Pointer.offset (f :: up)) := by
    intro t f up ht hf hs
    have hm : Mode.kindMode f.kind = some .code ∧ f.kind ≠ .fieldAccess ∧ f.kind ≠ .letBinding ∧ f.kind ≠ .closure := by
      simp only [List.mem_cons, List.not_mem_nil, or_false] at hf
      rcases hf with h | h | h <;> rw [h] <;> decide
    rw [offered_ident ht hm.2.1, if_neg (by simp [madeUp, hm.2.2.1, hm.2.2.2])]
    obtain ⟨l, h, -⟩ := Groups.code_name (p := ⟨.leaf .ident t, f :: up⟩) (idStart := idStart) (idContinue := idContinue)
      (text := text) (cursor := cursor) (explicit := explicit) (punc := punc) (mode_code hm.1) hs rfl
    exact ⟨_, rfl, by rw [h]; simp, by rw [h]; rfl⟩
  cases h with
  | «variable» => exact absurd (by simp) (hk _ _ rfl)
  | function => exact absurd (by simp) (hk _ _ rfl)
  | part ht _ => exact key ht (by simp) hs
  | loop ht _ => exact key ht (by simp) hs
  | module ht _ _ => exact key ht (by simp) hs

/-! ## Names that are used -/

/-- **C182.** For a name that is the value of a binding everything is offered that the place is good for. -/
theorem value_heard {t : Text} {f : Frame} {up : List Frame} (ht : t ≠ []) (hv : ValueOf ⟨.leaf .ident t, f :: up⟩) :
    offered isIdent numeric idStart idContinue text ⟨.leaf .ident t, f :: up⟩ cursor explicit punc =
      some (groups idStart idContinue text ⟨.leaf .ident t, f :: up⟩ cursor explicit punc) := by
  cases hv with
  | @mk _ b a a' e bs r _ h1 h2 h3 h4 h5 h6 h7 =>
    rw [offered_ident ht (by simp), if_neg]
    have hf : (a ++ b :: a' ++ .leaf .eq e :: bs ++ .leaf .ident t :: r).find? (fun x => isPattern x.kind) = some b := by
      rw [List.append_assoc, List.append_assoc]
      exact find_pattern h3 h2
    simp only [madeUp, isInit, initIndex, hf, ident_expr]
    have he : ((a ++ b :: a' ++ Tree.leaf .eq e :: bs).filter fun x => isExpr x.kind) = if isExpr b.kind then [b] else [] := by
      rw [List.filter_append, List.filter_append, no_exprs h3, List.filter_cons, no_exprs h4, List.filter_cons, no_exprs h6]
      simp [Tree.kind, isExpr]
    rw [he]
    rcases h2 with h2 | h2 | h2
    · have : b.kind ≠ .underscore ∧ b.kind ≠ .destructuring := by
        constructor <;> intro h <;> rw [h] at h2 <;> cases h2
      simp [h2, h1, this]
    · simp [h2, isExpr]
    · simp [h2, isExpr]

/-- **C182.** For a name that is the body of a function everything is offered that the place is good for. -/
theorem body_heard {t : Text} {f : Frame} {up : List Frame} (ht : t ≠ []) (hv : BodyOf ⟨.leaf .ident t, f :: up⟩) :
    offered isIdent numeric idStart idContinue text ⟨.leaf .ident t, f :: up⟩ cursor explicit punc =
      some (groups idStart idContinue text ⟨.leaf .ident t, f :: up⟩ cursor explicit punc) := by
  cases hv with
  | mk h1 h2 =>
    rw [offered_ident ht (by simp), if_neg]
    simp only [madeUp, isBody, ident_expr]
    simp
    exact h2

/-- **C182.** For a name that is neither right in a binding nor right in a function everything is offered that the place is good for. -/
theorem elsewhere_heard {t : Text} {f : Frame} {up : List Frame} (ht : t ≠ []) (hf : f.kind ∉ [Kind.letBinding, .closure, .fieldAccess]) :
    offered isIdent numeric idStart idContinue text ⟨.leaf .ident t, f :: up⟩ cursor explicit punc =
      some (groups idStart idContinue text ⟨.leaf .ident t, f :: up⟩ cursor explicit punc) := by
  simp only [List.mem_cons, List.not_mem_nil, or_false, not_or] at hf
  rw [offered_ident ht hf.2.2, if_neg (by simp [madeUp, hf])]

/-! ## Numbers -/

theorem beginsNumber_iff {t : Text} (hd : numeric '.' = false) : beginsNumber numeric t = true ↔ Numeral numeric t := by
  unfold Numeral
  match t with
  | [] => simp [beginsNumber]
  | [c] =>
    simp only [beginsNumber]
    constructor
    · exact fun h => ⟨c, [], h, .inl rfl⟩
    · rintro ⟨d, r, h, e | e⟩
      · cases e
        exact h
      · cases e
  | c :: d :: r =>
    simp only [beginsNumber, Bool.or_eq_true, Bool.and_eq_true, beq_iff_eq]
    constructor
    · rintro (h | ⟨rfl, h⟩)
      · exact ⟨c, d :: r, h, .inl rfl⟩
      · exact ⟨d, r, h, .inr rfl⟩
    · rintro ⟨x, y, h, e | e⟩
      · cases e
        exact .inl h
      · cases e
        exact .inr ⟨rfl, h⟩

/-- **C182.** At an error nothing is offered if its text begins with a number, and else everything the place is good for; unless the error is
taken for a label, a reference or the path of an import. -/
theorem number_quiet {t : Text} {up : List Frame} (hd : numeric '.' = false) {c : Class}
    (hc : classify isIdent ⟨.leaf .error t, up⟩ cursor = some c) (hn : c = .callee c.node ∨ c = .normal c.node) :
    offered isIdent numeric idStart idContinue text ⟨.leaf .error t, up⟩ cursor explicit punc = none ↔ Numeral numeric t := by
  unfold offered
  simp only [hc]
  have hs : skipsName (some c) = false := by
    rcases hn with h | h <;> rw [h] <;> rfl
  have hx : skipsNumber numeric (some c) ⟨.leaf .error t, up⟩ = beginsNumber numeric t := by
    rcases hn with h | h <;> rw [h] <;> simp [skipsNumber, Tree.kind, Tree.text]
  rw [hs, hx, Bool.false_or, ← beginsNumber_iff hd]
  split <;> simp [*]

/-- **C182.** At what is taken for a label, a reference or the path of an import, and where nothing is known, everything is offered that the
place is good for. -/
theorem marks_heard {p : Place} (hc : ∀ c, classify isIdent p cursor = some c →
      (∃ b, c = .label c.node b) ∨ c = .ref c.node ∨ c = .importPath c.node ∨ c = .includePath c.node) :
    offered isIdent numeric idStart idContinue text p cursor explicit punc =
      some (Groups.groups idStart idContinue text p cursor explicit punc) := by
  unfold offered
  have : skipsName (classify isIdent p cursor) = false ∧ skipsNumber numeric (classify isIdent p cursor) p = false := by
    cases h : classify isIdent p cursor with
    | none => exact ⟨rfl, rfl⟩
    | some c => rcases hc c h with ⟨b, h⟩ | h | h | h <;> rw [h] <;> exact ⟨rfl, rfl⟩
  simp only [this.1, this.2, Bool.or_self, Bool.false_eq_true, if_false]

/-! ## Characters that are typed -/

/-- **C182.** A parenthesis, a comma or a colon that is typed asks for something only as set; every other request is answered. -/
theorem asked (on : Bool) (trigger : Option Char) (g : Option Got) :
    (on = false → (∃ c ∈ ['(', ',', ':'], trigger = some c) → answered on trigger g = none) ∧
    (on = true ∨ (∀ c ∈ ['(', ',', ':'], trigger ≠ some c) → answered on trigger g = g) := by
  unfold answered
  constructor
  · rintro rfl ⟨c, hc, rfl⟩
    rw [if_pos]
    simp only [List.mem_cons, List.not_mem_nil, or_false] at hc
    rcases hc with rfl | rfl | rfl <;> simp
  · rintro (rfl | h)
    · simp
    · rw [if_neg]
      rintro ⟨h1 | h1 | h1, -⟩
      · exact h '(' (by simp) h1
      · exact h ',' (by simp) h1
      · exact h ':' (by simp) h1

/-! ## Examples -/

/-- In `let x = y`, nothing is offered at `x`, and names are at `y`. -/
example : offered (fun _ => true) Char.isDigit Char.isAlpha Char.isAlpha [] ⟨.leaf .ident ['x'], [⟨.letBinding,
      [.leaf .letKw ['l', 'e', 't'], .leaf .space [' ']],
      [.leaf .space [' '], .leaf .eq ['='], .leaf .space [' '], .leaf .ident ['y']]⟩]⟩ 5 false false = none :=
  variable_quiet_partial (by simp) (by simp [Bindable, Tree.kind, isExpr])

example : ValueOf ⟨.leaf .ident ['y'], [⟨.letBinding,
      [.leaf .letKw ['l', 'e', 't'], .leaf .space [' ']] ++ .leaf .ident ['x'] :: [.leaf .space [' ']] ++ .leaf .eq ['='] :: [.leaf .space [' ']], []⟩]⟩ :=
  .mk (by simp [Tree.kind]) (.inl rfl) (by simp [Bindable, Tree.kind, isExpr]) (by simp [Bindable, Tree.kind, isExpr]) (by simp)
    (by simp [Bindable, Tree.kind, isExpr]) rfl

/-- In `for x in y {}`, names are offered for `x`. -/
example : offered (fun _ => true) Char.isDigit Char.isAlpha Char.isAlpha [] ⟨.leaf .ident ['x'], [⟨.forLoop,
      [.leaf .forKw ['f', 'o', 'r'], .leaf .space [' ']],
      [.leaf .space [' '], .leaf .inKw ['i', 'n'], .leaf .space [' '], .leaf .ident ['y'], .inner .codeBlock []]⟩]⟩ 5 false false =
    some ⟨some 4, [.names, .code, .function]⟩ := by
  rfl

/-- In `let f(x)`, with no body yet, names are offered for `f`. -/
example : offered (fun _ => true) Char.isDigit Char.isAlpha Char.isAlpha [] ⟨.leaf .ident ['f'], [⟨.closure, [],
      [.inner .params [.leaf .leftParen ['('], .leaf .ident ['x'], .leaf .rightParen [')']], .leaf .error []]⟩,
      ⟨.letBinding, [.leaf .letKw ['l', 'e', 't'], .leaf .space [' ']], []⟩]⟩ 5 false false = some ⟨some 4, [.names, .code, .function]⟩ := by
  rfl

end Tinymist.Naming
