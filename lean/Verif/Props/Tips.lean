import Verif.Spec.Tips
import Verif.Props.Pointer

/-!
# Arguments are explained by the function that is called (C185)
-/

namespace Tinymist.Tips

open Mode (Kind trivia)
open Pointer

variable {w : World} {p : Place}

/-! ## Helpers -/

mutual
theorem findString_lists (s : Text) : ∀ (i : CastInfo) (l : List (Text × Text)), Lists i l →
    findString s i = (l.find? fun x => x.1 = s).map Prod.snd
  | .any, _, h => by cases h; rfl
  | .other, _, h => by cases h; rfl
  | .str t d, _, h => by
    cases h
    rw [findString]
    by_cases e : t = s <;> simp [e]
  | .union os, l, h => by
    rw [findString]
    exact findIn_lists s os l h

theorem findIn_lists (s : Text) : ∀ (os : List CastInfo) (l : List (Text × Text)), Lists (.union os) l →
    findIn s os = (l.find? fun x => x.1 = s).map Prod.snd
  | [], _, h => by cases h; rfl
  | o :: os, _, h => by
    cases h with
    | @more _ _ l ls h1 h2 =>
      rw [findIn, findString_lists s o l h1, findIn_lists s os ls h2, List.find?_append]
      cases l.find? fun x => x.1 = s <;> rfl
end

mutual
theorem lists_total : ∀ i : CastInfo, ∃ l, Lists i l
  | .any => ⟨[], .any⟩
  | .other => ⟨[], .other⟩
  | .str s d => ⟨_, .str⟩
  | .union os => listsIn_total os

theorem listsIn_total : ∀ os : List CastInfo, ∃ l, Lists (.union os) l
  | [] => ⟨[], .none⟩
  | o :: os => by
    obtain ⟨l, h1⟩ := lists_total o
    obtain ⟨ls, h2⟩ := listsIn_total os
    exact ⟨_, .more h1 h2⟩
end

theorem first_find {l : List (Text × Text)} {s d : Text} (h : First l s d) : (l.find? fun x => x.1 = s).map Prod.snd = some d := by
  obtain ⟨a, b, rfl, h⟩ := h
  have : (a ++ (s, d) :: b).find? (fun x => x.1 = s) = some (s, d) := by
    rw [List.find?_eq_some_iff_append]
    exact ⟨by simp, a, b, rfl, fun x hx => by simp [h x hx]⟩
  rw [this]
  rfl

theorem find_first {l : List (Text × Text)} {s d : Text} (h : (l.find? fun x => x.1 = s).map Prod.snd = some d) : First l s d := by
  obtain ⟨⟨s', d'⟩, h1, h2⟩ := Option.map_eq_some_iff.1 h
  cases h2
  obtain ⟨h3, a, b, h4, h5⟩ := List.find?_eq_some_iff_append.1 h1
  have h3 : s' = s := by simpa using h3
  subst h3
  exact ⟨a, b, h4, fun x hx => by simpa using h5 x hx⟩

theorem argOf_argument {f : Text} (h : ArgumentOf f p) : ∃ n up, p.up = n :: up ∧
    argOf w p = (w.library f).map fun g => (g, n.left ++ p.tree :: n.right) := by
  cases h with
  | @mk t k l1 r1 l2 r2 l3 r3 pre post up hk hc hp =>
    refine ⟨_, _, rfl, ?_⟩
    unfold argOf
    simp only
    rw [if_pos ⟨trivial, trivial, hk⟩]
    have : callee (l3 ++ .inner .args (l2 ++ .inner .named (l1 ++ t :: r1) :: r2) :: r3) = some (.leaf .ident f) := by
      unfold callee
      rw [hc, List.find?_eq_some_iff_append]
      exact ⟨rfl, pre, _, rfl, fun x hx => by simp [hp x hx]⟩
    rw [this]

theorem argument_argOf {g : Func} {cs : List Tree} (h : argOf w p = some (g, cs)) : ∃ f, ArgumentOf f p ∧ w.library f = some g := by
  obtain ⟨t, up⟩ := p
  unfold argOf at h
  simp only at h
  split at h
  · rename_i n a c up
    split at h
    · rename_i hk
      split at h
      · rename_i f hc
        obtain ⟨g', h1, h2⟩ := Option.map_eq_some_iff.1 h
        cases h2
        refine ⟨f, ?_, h1⟩
        unfold callee at hc
        obtain ⟨-, pre, rest, h3, h4⟩ := List.find?_eq_some_iff_append.1 hc
        obtain ⟨nk, l1, r1⟩ := n
        obtain ⟨ak, l2, r2⟩ := a
        obtain ⟨k, l3, r3⟩ := c
        simp only at hk h3
        obtain ⟨rfl, rfl, hk⟩ := hk
        exact .mk hk h3 fun x hx => by simpa using h4 x hx
      · cases h
    · cases h
  · cases h

theorem string_arg {n s : Text} (h : IsString p n s) : ∃ f up, p.up = f :: up ∧ f.kind = .named ∧
    argName (f.left ++ p.tree :: f.right) = some (.leaf .ident n) := by
  obtain ⟨-, pre, post, r, up, h2, h3⟩ := h
  refine ⟨_, _, h2, rfl, ?_⟩
  unfold argName
  rw [List.find?_eq_some_iff_append]
  exact ⟨rfl, pre, post ++ p.tree :: r, by simp, fun x hx => by simp [h3 x hx]⟩

/-- What the tips for arguments come from. -/
theorem paramTip_some {t : Tip} (h : paramTip w p = some t) : ∃ g cs, argOf w p = some (g, cs) ∧
    ((index p = 0 ∧ p.tree.kind = .ident ∧ ∃ q, g p.tree.text = some q ∧ t = .param q.docs) ∨
      (p.tree.kind = .str ∧ ∃ n q d, (argName cs).map Tree.text = some n ∧ g n = some q ∧
        findString (w.unquote p.tree.text) q.input = some d ∧ t = .option d)) := by
  unfold paramTip at h
  split at h
  · cases h
  · rename_i g cs hg
    refine ⟨g, cs, hg, ?_⟩
    simp only at h
    rcases Option.or_eq_some_iff.1 h with h | ⟨-, h⟩
    · split at h
      · rename_i hi
        obtain ⟨q, h1, h2⟩ := Option.map_eq_some_iff.1 h
        exact .inl ⟨hi.1, hi.2, q, h1, h2.symm⟩
      · cases h
    · split at h
      · rename_i hi
        obtain ⟨n, h1, h2⟩ := Option.bind_eq_some_iff.1 h
        obtain ⟨q, h3, h4⟩ := Option.bind_eq_some_iff.1 h2
        obtain ⟨d, h5, h6⟩ := Option.map_eq_some_iff.1 h4
        exact .inr ⟨hi, n.text, q, d, by rw [h1]; rfl, h3, h5, h6.symm⟩
      · cases h

theorem tip_param {t : Tip} (ht : (∃ d, t = .param d) ∨ ∃ d, t = .option d) (h : tip w p = some t) : ∃ g cs, argOf w p = some (g, cs) ∧
    ((index p = 0 ∧ p.tree.kind = .ident ∧ ∃ q, g p.tree.text = some q ∧ t = .param q.docs) ∨
      (p.tree.kind = .str ∧ ∃ n q d, (argName cs).map Tree.text = some n ∧ g n = some q ∧
        findString (w.unquote p.tree.text) q.input = some d ∧ t = .option d)) := by
  unfold tip at h
  split at h
  · cases h
  · rcases Option.or_eq_some_iff.1 h with h | ⟨-, h⟩
    · rcases Option.or_eq_some_iff.1 h with h | ⟨-, h⟩
      · rcases Option.or_eq_some_iff.1 h with h | ⟨-, h⟩
        · exact paramTip_some h
        · unfold fontTip at h
          repeat' split at h
          all_goals try cases h
          obtain ⟨x, -, h⟩ := Option.map_eq_some_iff.1 h
          subst h
          rcases ht with ⟨d, h⟩ | ⟨d, h⟩ <;> cases h
      · obtain ⟨x, -, h⟩ := Option.map_eq_some_iff.1 h
        subst h
        rcases ht with ⟨d, h⟩ | ⟨d, h⟩ <;> cases h
    · unfold closureTip at h
      simp only at h
      repeat' split at h
      all_goals try cases h
      rcases ht with ⟨d, h⟩ | ⟨d, h⟩ <;> cases h

theorem name_named {m : Frame} {up : List Frame} {n : Text} (h : p.up = m :: up)
    (h1 : (argName (m.left ++ p.tree :: m.right)).map Tree.text = some n) : ArgNamed p n := by
  obtain ⟨x, h2, h3⟩ := Option.map_eq_some_iff.1 h1
  unfold argName at h2
  obtain ⟨h4, pre, post, h5, h6⟩ := List.find?_eq_some_iff_append.1 h2
  exact ⟨m, up, pre, x, post, h, h5, by simpa using h4, h3, fun y hy => by simpa using h6 y hy⟩

theorem first_named {f : Text} (h : ArgumentOf f p) (h0 : index p = 0) (h1 : p.tree.kind = .ident) : ArgNamed p p.tree.text := by
  obtain ⟨m, up, h2, -⟩ := argOf_argument (w := ⟨fun _ => none, id, id, [], fun _ => none, fun _ => [], fun _ _ => true⟩) h
  unfold index at h0
  rw [h2] at h0
  have : m.left = [] := List.length_eq_zero_iff.1 h0
  exact ⟨m, up, [], p.tree, m.right, h2, by simp only [this, List.nil_append], h1, rfl, fun _ h => (nomatch h)⟩

/-! ## The theorems -/

/-- On the name of an argument of a function of the library, the docs of the parameter of this name are shown. -/
theorem argument_name {f n : Text} {g : Func} {q : Param} (ha : ArgumentOf f p) (hf : w.library f = some g) (hn : IsName p n)
    (hq : g n = some q) : tip w p = some (.param q.docs) := by
  obtain ⟨m, up, h1, h2⟩ := argOf_argument (w := w) ha
  obtain ⟨ht, r, up', h3⟩ := hn
  rw [hf] at h2
  have hi : index p = 0 := by
    unfold index
    rw [h3]
    rfl
  have hk : p.tree.kind = .ident := by rw [ht]; rfl
  have hx : p.tree.text = n := by rw [ht]; simp [Tree.text]
  have hp : paramTip w p = some (.param q.docs) := by
    unfold paramTip
    rw [h2]
    simp only [Option.map_some]
    rw [if_pos ⟨hi, hk⟩, hx, hq]
    rfl
  unfold tip
  rw [hk, hp]
  rfl

/-- On a string in an argument, the docs of the string are shown that are found first among what the parameter takes. -/
theorem argument_string {f n s d : Text} {g : Func} {q : Param} {l : List (Text × Text)} (ha : ArgumentOf f p)
    (hf : w.library f = some g) (hs : IsString p n s) (hq : g n = some q) (hl : Lists q.input l) (hd : First l (w.unquote s) d) :
    tip w p = some (.option d) := by
  obtain ⟨m, up, h1, h2⟩ := argOf_argument (w := w) ha
  obtain ⟨m', up', h1', -, h3⟩ := string_arg hs
  rw [h1] at h1'
  cases h1'
  rw [hf] at h2
  have hk : p.tree.kind = .str := by rw [hs.1]; rfl
  have hx : p.tree.text = s := by rw [hs.1]; simp [Tree.text]
  have hp : paramTip w p = some (.option d) := by
    unfold paramTip
    rw [h2]
    simp only [Option.map_some]
    rw [if_neg (by rw [hk]; simp), if_pos hk, h3, hx]
    simp only [Option.bind_some, Option.none_or]
    have : (Tree.leaf Kind.ident n).text = n := by simp [Tree.text]
    rw [this, hq, Option.bind_some, findString_lists _ _ _ hl, first_find hd]
    rfl
  unfold tip
  rw [hk, hp]
  rfl

/-- The docs of a parameter are shown only on the name of an argument, for a function of the library that has such a parameter. -/
theorem param_only {d : Text} (h : tip w p = some (.param d)) :
    ∃ f g n q, ArgumentOf f p ∧ w.library f = some g ∧ ArgNamed p n ∧ p.tree.kind = .ident ∧ p.tree.text = n ∧
      g n = some q ∧ q.docs = d := by
  obtain ⟨g, cs, h1, h2⟩ := tip_param (.inl ⟨d, rfl⟩) h
  obtain ⟨f, h3, h4⟩ := argument_argOf h1
  rcases h2 with ⟨h0, h5, q, h6, h7⟩ | ⟨-, _, _, _, -, -, -, h⟩
  rotate_left
  · cases h
  · cases h7
    exact ⟨f, g, _, q, h3, h4, first_named h3 h0 h5, h5, rfl, h6, rfl⟩

/-- The docs of a string are shown only for a string that the parameter takes. -/
theorem option_only {d : Text} (h : tip w p = some (.option d)) :
    ∃ f g n q l, ArgumentOf f p ∧ w.library f = some g ∧ ArgNamed p n ∧ p.tree.kind = .str ∧ g n = some q ∧ Lists q.input l ∧
      First l (w.unquote p.tree.text) d := by
  obtain ⟨g, cs, h1, h2⟩ := tip_param (.inr ⟨d, rfl⟩) h
  obtain ⟨f, h3, h4⟩ := argument_argOf h1
  rcases h2 with ⟨-, -, _, -, h⟩ | ⟨h5, n, q, d', h6, h7, h8, h9⟩
  · cases h
  · cases h9
    obtain ⟨m, up, h10, h11⟩ := argOf_argument (w := w) h3
    rw [h1, h4] at h11
    cases h11
    obtain ⟨l, hl⟩ := lists_total q.input
    rw [findString_lists _ _ _ hl] at h8
    exact ⟨f, g, n, q, l, h3, h4, name_named h10 h6, h5, h7, hl, find_first h8⟩

/-- On a string in an argument named `font` the first family of this name is shown, in whatever case it is written, if nothing is
known of the string as an option. -/
theorem font_shown {s name detail : Text} {a b : List (Text × Text)} (hs : IsString p "font".toList s)
    (hp : ∀ f, ArgumentOf f p → w.library f = none ∨ ∃ g, w.library f = some g ∧ g "font".toList = none)
    (hw : w.fonts = a ++ (name, detail) :: b) (hn : w.lower name = w.lower (w.unquote s))
    (ha : ∀ x ∈ a, w.lower x.1 ≠ w.lower (w.unquote s)) : tip w p = some (.font detail) := by
  obtain ⟨m, up, h1, h2, h3⟩ := string_arg hs
  have hk : p.tree.kind = .str := by rw [hs.1]; rfl
  have hx : p.tree.text = s := by rw [hs.1]; simp [Tree.text]
  have hq : paramTip w p = none := by
    cases h : paramTip w p with
    | none => rfl
    | some t =>
      obtain ⟨g, cs, h4, h5⟩ := paramTip_some h
      obtain ⟨f, h6, h7⟩ := argument_argOf h4
      obtain ⟨m', up', h8, h9⟩ := argOf_argument (w := w) h6
      rw [h1] at h8
      cases h8
      rw [h4, h7] at h9
      cases h9
      rcases hp f h6 with h | ⟨g', h, hn'⟩
      · rw [h] at h7
        cases h7
      · rw [h] at h7
        cases h7
        rcases h5 with ⟨-, h5, -⟩ | ⟨-, n, q, d, h5, h10, -, -⟩
        · rw [hk] at h5
          cases h5
        · rw [h3] at h5
          cases h5
          have : (Tree.leaf Kind.ident "font".toList).text = "font".toList := by simp [Tree.text]
          rw [this, hn'] at h10
          cases h10
  have hf : fontTip w p = some (.font detail) := by
    unfold fontTip
    rw [if_pos hk, h1]
    simp only
    rw [h3, if_pos ⟨h2, by simp [Tree.text]⟩, hx, hw]
    have : (a ++ (name, detail) :: b).find? (fun x => w.lower x.1 = w.lower (w.unquote s)) = some (name, detail) := by
      rw [List.find?_eq_some_iff_append]
      exact ⟨by simp [hn], a, b, rfl, fun x hx => by simp [ha x hx]⟩
    rw [this]
    rfl
  unfold tip
  rw [hk, hq, hf]
  rfl

/-- On the `=` or `=>` of a closure the names that it captures are shown, in order, if there are some. -/
theorem closure_shown {k : Kind} {t : Text} {l r : List Tree} {up : List Frame} (hk : k = .eq ∨ k = .arrow)
    (hs : w.sampled ⟨.leaf k t, ⟨.closure, l, r⟩ :: up⟩ = none)
    (hc : w.captures ⟨.inner .closure (l ++ .leaf k t :: r), up⟩ ≠ []) :
    ∃ names, tip w ⟨.leaf k t, ⟨.closure, l, r⟩ :: up⟩ = some (.captures names) ∧
      names.Perm (w.captures ⟨.inner .closure (l ++ .leaf k t :: r), up⟩) ∧
      ((∀ a b, w.le a b || w.le b a) → (∀ a b c, w.le a b → w.le b c → w.le a c) → names.Pairwise fun a b => w.le a b) := by
  have hp : paramTip w ⟨.leaf k t, ⟨.closure, l, r⟩ :: up⟩ = none := by
    have : argOf w ⟨.leaf k t, ⟨.closure, l, r⟩ :: up⟩ = none := by
      cases h : argOf w ⟨.leaf k t, ⟨.closure, l, r⟩ :: up⟩ with
      | none => rfl
      | some x =>
        obtain ⟨f, h1, -⟩ := argument_argOf h
        cases h1
    unfold paramTip
    rw [this]
  have hf : fontTip w ⟨.leaf k t, ⟨.closure, l, r⟩ :: up⟩ = none := by
    unfold fontTip
    have : (Tree.leaf k t).kind = k := rfl
    simp only [this]
    rw [if_neg (by rcases hk with rfl | rfl <;> decide)]
  refine ⟨(w.captures ⟨.inner .closure (l ++ .leaf k t :: r), up⟩).mergeSort w.le, ?_, List.mergeSort_perm _ _, ?_⟩
  · unfold tip
    rw [hp, hf, hs]
    have ht : trivia (Tree.leaf k t).kind = false := by rcases hk with rfl | rfl <;> rfl
    simp only [ht]
    rw [if_neg (by decide)]
    have hc' : closureTip w ⟨.leaf k t, ⟨.closure, l, r⟩ :: up⟩ =
        some (.captures ((w.captures ⟨.inner .closure (l ++ .leaf k t :: r), up⟩).mergeSort w.le)) := by
      unfold closureTip
      simp only
      have : (Tree.leaf k t).kind = k := rfl
      rw [this, if_pos hk, if_pos trivial, if_neg hc]
    rw [hc']
    rfl
  · intro h1 h2
    exact List.pairwise_mergeSort h2 h1 _

/-- Nothing is shown on blanks and comments. -/
theorem nothing_on_trivia (h : p.tree.kind = .space ∨ p.tree.kind = .parbreak ∨ p.tree.kind = .lineComment ∨ p.tree.kind = .blockComment) :
    tip w p = none := by
  unfold tip
  rcases h with h | h | h | h <;> rw [h] <;> rfl

/-! ## Where it is not so -/

/-- A function with a filling. -/
def filled : Func := fun n => if n = ['f'] then some ⟨['d'], .any⟩ else none

/-- A library with this function under the name `r`. -/
def filling : World where
  library f := if f = ['r'] then some filled else none
  unquote := id
  lower := id
  fonts := []
  sampled _ := none
  captures _ := []
  le _ _ := true

/-- The function may be bound in the file: the docs are those of the library still. In `{let r(f) = 1; r(f: 2)}` the function that
is called is the one of the file. -/
theorem shadowed : ∃ (w : World) (p : Place) (f : Text) (d : Text), BoundBefore f p ∧ ArgumentOf f p ∧ tip w p = some (.param d) := by
  refine ⟨filling,
    ⟨.leaf .ident ['f'], [⟨.named, [], [.leaf .colon [':'], .leaf .space [' '], .leaf .int ['2']]⟩,
      ⟨.args, [.leaf .leftParen ['(']], [.leaf .rightParen [')']]⟩, ⟨.funcCall, [.leaf .ident ['r']], []⟩,
      ⟨.code, [.inner .letBinding (.leaf .letKw "let".toList :: .leaf .space [' '] :: .inner .closure (.leaf .ident ['r'] ::
        [.inner .params [.leaf .leftParen ['('], .leaf .ident ['f'], .leaf .rightParen [')']], .leaf .space [' '],
          .leaf .eq ['='], .leaf .space [' '], .leaf .int ['1']]) :: []), .leaf .semicolon [';'], .leaf .space [' ']], []⟩]⟩,
    ['r'], ['d'], ?_, ?_, ?_⟩
  · exact ⟨_, .tail _ (.tail _ (.tail _ (.head _))), _, _, .head _⟩
  · exact .mk (.inl rfl) (pre := []) rfl (fun _ h => (nomatch h))
  · exact argument_name (f := ['r']) (n := ['f']) (g := filled) (q := ⟨['d'], .any⟩)
      (.mk (.inl rfl) (pre := []) rfl (fun _ h => (nomatch h))) rfl ⟨rfl, _, _, rfl⟩ rfl

/-- A font is told of where there is no call at all: in the dictionary `(font: "Arial")`. -/
theorem font_without_call : ∃ (w : World) (p : Place), (∀ g ∈ p.up, g.kind ≠ .funcCall ∧ g.kind ≠ .setRule) ∧
    tip w p = some (.font "1 variant".toList) := by
  refine ⟨⟨fun _ => none, fun s => s.tail.dropLast, id, [("Arial".toList, "1 variant".toList)], fun _ => none, fun _ => [], fun _ _ => true⟩,
    ⟨.leaf .str "\"Arial\"".toList, [⟨.named, [.leaf .ident "font".toList, .leaf .colon [':'], .leaf .space [' ']], []⟩,
      ⟨.dict, [.leaf .leftParen ['(']], [.leaf .rightParen [')']]⟩]⟩, ?_, ?_⟩
  · intro g hg
    rcases List.mem_cons.1 hg with rfl | hg
    · exact ⟨by decide, by decide⟩
    · rcases List.mem_cons.1 hg with rfl | hg
      · exact ⟨by decide, by decide⟩
      · cases hg
  · exact font_shown (name := "Arial".toList) (a := []) (b := []) (s := "\"Arial\"".toList)
      ⟨rfl, [], [.leaf .colon [':'], .leaf .space [' ']], [], _, rfl, fun _ h => (nomatch h)⟩ (fun _ _ => .inl rfl) rfl
      (by decide +kernel) (fun _ h => (nomatch h))

/-! ## Examples -/

/-- What a style may be. -/
def styles : CastInfo :=
  .union [.other, .union [.str "normal".toList "Upright".toList], .str "italic".toList "Slanted by hand".toList,
    .str "italic".toList "Again".toList]

/-- A function with a style. -/
def styled : Func := fun n => if n = "style".toList then some ⟨"The style".toList, styles⟩ else none

/-- A library with this function as `text`. -/
def styling : World where
  library f := if f = "text".toList then some styled else none
  unquote s := s.tail.dropLast
  lower := id
  fonts := []
  sampled _ := none
  captures _ := []
  le _ _ := true

/-- `set text(style: "italic")`: the first option of this name. -/
example : tip styling
    ⟨.leaf .str "\"italic\"".toList, [⟨.named, [.leaf .ident "style".toList, .leaf .colon [':']], []⟩,
      ⟨.args, [], []⟩, ⟨.setRule, [.leaf .setKw "set".toList, .leaf .space [' '], .leaf .ident "text".toList], []⟩]⟩ =
    some (.option "Slanted by hand".toList) := by
  refine argument_string (f := "text".toList) (n := "style".toList) (g := styled) (s := "\"italic\"".toList)
    (q := ⟨"The style".toList, styles⟩) (l := [("normal".toList, "Upright".toList), ("italic".toList, "Slanted by hand".toList),
      ("italic".toList, "Again".toList)]) ?_ 
    (by show (if "text".toList = "text".toList then some styled else none) = some styled; exact if_pos rfl)
    ⟨rfl, [], [.leaf .colon [':']], [], _, rfl, fun _ h => (nomatch h)⟩ (by unfold styled; exact if_pos rfl) ?_ ?_
  · refine .mk (.inr rfl) (pre := [.leaf .setKw "set".toList, .leaf .space [' ']]) rfl ?_
    intro x hx
    rcases List.mem_cons.1 hx with rfl | hx
    · rfl
    · rcases List.mem_cons.1 hx with rfl | hx
      · rfl
      · cases hx
  · exact .more .other (.more (.more .str .none) (.more .str (.more .str .none)))
  · exact ⟨[("normal".toList, "Upright".toList)], [("italic".toList, "Again".toList)], by decide +kernel, by decide +kernel⟩

/-- `(x) => x + y`: the closure captures `y`. -/
example : ∃ (w : World) (p : Place), tip w p = some (.captures [['y']]) :=
  ⟨⟨fun _ => none, id, id, [], fun _ => none, fun _ => [['y']], fun _ _ => true⟩,
    ⟨.leaf .arrow "=>".toList, [⟨.closure, [.inner .params []], [.leaf .ident ['y']]⟩]⟩, by decide +kernel⟩

end Tinymist.Tips
