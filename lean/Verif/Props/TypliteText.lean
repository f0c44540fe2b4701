import Verif.Props.TyplitePictures

/-!
# C117: headings and items
-/

namespace Tinymist.Typlite

theorem eval_heading {env : Env} {fuel level : Nat} {body : List Node} {w w' : Worker} {t : Text}
    (h : reduceWith (eval env fuel) body w = .ok (t, w')) :
    eval env (fuel + 1) (.heading level body) w = .ok (.content (List.replicate level '#' ++ [' '] ++ t), w') := by
  have hst : step env (eval env fuel) (.heading level body) w = .ok (.content (List.replicate level '#' ++ [' '] ++ t), w') := by
    rw [step, andThen_ok h]
    rfl
  rw [eval, andThen_ok hst]
  rfl

/-- **C117.** A heading is a heading of the same level with the converted text. Missing: headings deeper than six. -/
theorem heading_partial (env : Env) (fuel level : Nat) (body : List Node) (w w' : Worker) (t : Text) (h1 : 1 ≤ level) (h6 : level ≤ 6)
    (h : reduceWith (eval env fuel) body w = .ok (t, w')) :
    ∃ line, eval env (fuel + 1) (.heading level body) w = .ok (.content line, w') ∧ Heading line level t :=
  ⟨_, eval_heading h, h1, h6, by simp⟩

example (env : Env) (w : Worker) : reduceWith (eval env 1) [.text ['a']] w = .ok (['a'], w) := rfl

/-- **C117.** A deeper heading is no heading. -/
theorem heading_deep (env : Env) (fuel level : Nat) (body : List Node) (w w' : Worker) (t : Text) (h7 : 7 ≤ level)
    (h : reduceWith (eval env fuel) body w = .ok (t, w')) :
    ∃ line, eval env (fuel + 1) (.heading level body) w = .ok (.content line, w') ∧ ∀ l s, ¬ Heading line l s := by
  refine ⟨_, eval_heading h, ?_⟩
  intro l s ⟨_, h6, he⟩
  have hl : (List.replicate level '#' ++ [' '] ++ t)[l]? = some '#' := by
    rw [List.append_assoc, List.getElem?_append_left (by rw [List.length_replicate]; omega)]
    rw [List.getElem?_replicate, if_pos (by omega)]
  rw [he, List.getElem?_append_right (by simp)] at hl
  simp at hl

/-! ## Items -/

theorem eval_item {env : Env} {fuel : Nat} {body : List Node} {w w' : Worker} {t : Text} (ha : env.annotate = false)
    (h : reduceWith (eval env fuel) body w = .ok (t, w')) :
    eval env (fuel + 1) (.item body) w = .ok (.content (['-', ' '] ++ t), w') := by
  have hst : step env (eval env fuel) (.item body) w = .ok (.content (['-', ' '] ++ t), w') := by
    rw [step]
    simp only [ha, Bool.false_eq_true, if_false, h]
  rw [eval, andThen_ok hst]
  rfl

theorem eval_enum {env : Env} {fuel : Nat} {number : Option Nat} {body : List Node} {w w' : Worker} {t : Text}
    (h : reduceWith (eval env fuel) body w = .ok (t, w')) :
    eval env (fuel + 1) (.enum number body) w = .ok (.content (digits (number.getD 1) ++ ['.', ' '] ++ t), w') := by
  have hst : step env (eval env fuel) (.enum number body) w = .ok (.content (digits (number.getD 1) ++ ['.', ' '] ++ t), w') := by
    show andThen (reduceWith (eval env fuel) body) _ w = _
    rw [andThen_ok h]
    cases number
    · show ret (Value.content (['1'] ++ ['.', ' '] ++ t)) w' = _
      rw [(by decide : ['1'] = Nat.toDigits 10 1)]
      rfl
    · rfl
  rw [eval, andThen_ok hst]
  rfl

theorem lines_item {t marker : Text} {first : Text} {ls : List Text} (hm : '\n' ∉ marker) (h : IsLines t (first :: ls)) :
    IsLines (marker ++ ' ' :: t) ((marker ++ ' ' :: first) :: ls) := by
  obtain ⟨_, h2, h3⟩ := h
  refine ⟨by simp, ?_, ?_⟩
  · intro l hl
    rcases List.mem_cons.mp hl with rfl | hl
    · have := h2 first (by simp)
      simp [hm, this]
    · exact h2 l (by simp [hl])
  · rw [h3]
    cases ls with
    | nil => simp [List.intercalate]
    | cons a b => simp [List.intercalate, List.intersperse]

/-- **C117.** An item with lines that are set in by at least two columns is one item of a list, with the converted lines in it. Missing:
lines that are set in by one column. -/
theorem item_partial (env : Env) (fuel : Nat) (body : List Node) (w w' : Worker) (t first : Text) (ls : List Text)
    (ha : env.annotate = false) (h : reduceWith (eval env fuel) body w = .ok (t, w'))
    (hl : IsLines t (first :: ls.map fun l => if l = [] then [] else List.replicate 2 ' ' ++ l)) :
    ∃ out, eval env (fuel + 1) (.item body) w = .ok (.content out, w') ∧ Item out ['-'] (first :: ls) := by
  refine ⟨_, eval_item ha h, first, _, ls, lines_item (by decide) hl, rfl, by simp, ?_⟩
  intro p hp
  rw [List.mem_iff_getElem] at hp
  obtain ⟨i, hi, rfl⟩ := hp
  simp only [List.getElem_zip, List.getElem_map]
  split
  · rename_i h0
    exact Or.inl ⟨rfl, h0⟩
  · exact Or.inr rfl

/-- An item with an item in it. -/
example (env : Env) (w : Worker) (ha : env.annotate = false) :
    reduceWith (eval env 2) [.text ['a'], .text ['\n', ' ', ' '], .item [.text ['b']]] w = .ok (['a', '\n', ' ', ' ', '-', ' ', 'b'], w) ∧
    IsLines ['a', '\n', ' ', ' ', '-', ' ', 'b'] (['a'] :: [['-', ' ', 'b']].map fun l => if l = [] then [] else List.replicate 2 ' ' ++ l) := by
  refine ⟨?_, by refine ⟨by simp, by decide, by decide⟩⟩
  have := eval_item (env := env) (fuel := 1) (body := [.text ['b']]) (w := w) (w' := w) (t := ['b']) ha rfl
  rw [reduceWith, andThen_ok (show eval env 2 (.text ['a']) w = .ok (.content ['a'], w) from rfl), reduceWith, andThen,
    andThen_ok (show eval env 2 (.text ['\n', ' ', ' ']) w = .ok (.content ['\n', ' ', ' '], w) from rfl), reduceWith, andThen,
    andThen_ok this]
  rfl

/-- **C117.** The same for a numbered item, whose lines have to be set in as far as the number is wide. -/
theorem enum_item_partial (env : Env) (fuel : Nat) (number : Option Nat) (body : List Node) (w w' : Worker) (t first : Text)
    (ls : List Text) (h : reduceWith (eval env fuel) body w = .ok (t, w'))
    (hl : IsLines t (first :: ls.map fun l => if l = [] then [] else
      List.replicate ((Nat.toDigits 10 (number.getD 1)).length + 2) ' ' ++ l)) :
    ∃ out, eval env (fuel + 1) (.enum number body) w = .ok (.content out, w') ∧
      Item out (Nat.toDigits 10 (number.getD 1) ++ ['.']) (first :: ls) := by
  refine ⟨_, eval_enum h, first, ls.map fun l => if l = [] then [] else
    List.replicate ((Nat.toDigits 10 (number.getD 1)).length + 2) ' ' ++ l, ls, ?_, rfl, by rw [List.length_map], ?_⟩
  · have := lines_item (marker := Nat.toDigits 10 (number.getD 1) ++ ['.']) (by
      have := digits_no (c := '\n') rfl (number.getD 1)
      unfold digits at this
      simp [this]) hl
    simpa [digits, List.append_assoc] using this
  · intro p hp
    rw [List.mem_iff_getElem] at hp
    obtain ⟨i, hi, rfl⟩ := hp
    simp only [List.getElem_zip, List.getElem_map]
    split
    · rename_i h0
      exact Or.inl ⟨rfl, h0⟩
    · right
      simp

/-- **C117.** An item in an item that is set in by one column is not in the item any more. -/
theorem item_shallow (env : Env) (w : Worker) (ha : env.annotate = false) :
    ∃ out, eval env 3 (.item [.text ['a'], .text ['\n', ' '], .item [.text ['b']]]) w = .ok (.content out, w) ∧
      ∀ content, ¬ Item out ['-'] content := by
  have h1 := eval_item (env := env) (fuel := 1) (body := [.text ['b']]) (w := w) (w' := w) (t := ['b']) ha rfl
  have h2 : reduceWith (eval env 2) [.text ['a'], .text ['\n', ' '], .item [.text ['b']]] w = .ok (['a', '\n', ' ', '-', ' ', 'b'], w) := by
    rw [reduceWith, andThen_ok (show eval env 2 (.text ['a']) w = .ok (.content ['a'], w) from rfl), reduceWith, andThen,
      andThen_ok (show eval env 2 (.text ['\n', ' ']) w = .ok (.content ['\n', ' '], w) from rfl), reduceWith, andThen,
      andThen_ok h1]
    rfl
  refine ⟨_, eval_item ha h2, ?_⟩
  rintro content ⟨first, rest, rest', hl, _, hlen, hz⟩
  have hl' : IsLines (['-', ' '] ++ ['a', '\n', ' ', '-', ' ', 'b']) [['-', ' ', 'a'], [' ', '-', ' ', 'b']] :=
    ⟨by simp, by decide, by decide⟩
  have he := isLines_unique hl hl'
  simp only [List.cons.injEq] at he
  obtain ⟨_, rfl⟩ := he
  cases rest' with
  | nil => simp at hlen
  | cons r rest' =>
    rcases hz ([' ', '-', ' ', 'b'], r) (by simp) with ⟨h0, _⟩ | h0
    · simp at h0
    · simp [List.replicate] at h0

/-! ## Numbers -/

/-- **C117.** Numbered items have the numbers that they have in Typst, if only the first one has its number given. Missing: numbers
that are given further on, and large ones. -/
theorem numbers_partial (env : Env) (fuel : Nat) (start : Option Nat) (items : List (Worker × List Node × Text × Worker))
    (h : ∀ i ∈ items, reduceWith (eval env fuel) i.2.1 i.1 = .ok (i.2.2.1, i.2.2.2)) (hs : ∀ n, start = some n → n < 10 ^ 9)
    (ns : List Nat) (hn : Numbered 1 (items.mapIdx fun k _ => if k = 0 then start else none) ns) :
    ∃ ls : List Text, ls.length = items.length ∧
      (∀ k i, items[k]? = some i → ∃ l, ls[k]? = some l ∧
        eval env (fuel + 1) (.enum (if k = 0 then start else none) i.2.1) i.1 = .ok (.content l, i.2.2.2)) ∧
      MarkdownNumbers ls ns := by
  have hnum : ∀ (k m : Nat) (os : List (Option Nat)) (ns : List Nat), os = List.replicate k none → Numbered m os ns →
      ns = List.range' m k := by
    intro k
    induction k with
    | zero =>
      intro m os ns ho hn
      subst ho
      cases hn
      rfl
    | succ k ih =>
      intro m os ns ho hn
      rw [List.replicate_succ] at ho
      subst ho
      cases hn with
      | next hn => rw [ih _ _ _ rfl hn, List.range'_succ]
  refine ⟨items.mapIdx fun k i => digits ((if k = 0 then start else none).getD 1) ++ ['.', ' '] ++ i.2.2.1, by simp, ?_, ?_, ?_⟩
  · intro k i hi
    refine ⟨digits ((if k = 0 then start else none).getD 1) ++ ['.', ' '] ++ i.2.2.1, ?_, ?_⟩
    · rw [List.getElem?_mapIdx, hi]
      rfl
    · exact eval_enum (h i (List.mem_of_getElem? hi))
  · intro l hl
    rw [List.mem_mapIdx] at hl
    obtain ⟨k, hk, rfl⟩ := hl
    exact ⟨(if k = 0 then start else none).getD 1, items[k].2.2.1, by simp [digits]⟩
  · intro l rest hl
    cases items with
    | nil => simp at hl
    | cons i items =>
      rw [List.mapIdx_cons] at hl hn
      simp only [List.cons.injEq] at hl
      obtain ⟨rfl, _⟩ := hl
      refine ⟨start.getD 1, i.2.2.1, by simp [digits], ?_, ?_⟩
      · cases start with
        | none => decide
        | some n => exact hs n rfl
      · have hrep : (items.mapIdx fun k _ => if k + 1 = 0 then start else none) = List.replicate items.length (none : Option Nat) := by
          apply List.ext_getElem
          · simp
          · intro k h1 h2
            simp
        rw [hrep] at hn
        simp only [if_true] at hn
        cases start with
        | none =>
          cases hn with
          | next hn =>
            rw [hnum _ _ _ _ rfl hn]
            simp [List.range'_succ]
        | some n =>
          cases hn with
          | given n hn =>
            rw [hnum _ _ _ _ rfl hn]
            simp [List.range'_succ]

/-- Three items from five on. -/
example : Numbered 1 ([(), (), ()].mapIdx fun k _ => if k = 0 then some 5 else none) [5, 6, 7] :=
  .given 5 (.next (.next (.nil 8)))

/-- **C117.** A number that is given further on is lost: `+ a` and `5. b` have the numbers 1 and 5 in Typst, 1 and 2 in Markdown. -/
theorem number_lost (env : Env) (fuel : Nat) (w : Worker) :
    Numbered 1 [none, some 5] [1, 5] ∧
    eval env (fuel + 2) (.enum none [.text ['a']]) w = .ok (.content "1. a".toList, w) ∧
    eval env (fuel + 2) (.enum (some 5) [.text ['b']]) w = .ok (.content "5. b".toList, w) ∧
    MarkdownNumbers ["1. a".toList, "5. b".toList] [1, 2] ∧ ¬ MarkdownNumbers ["1. a".toList, "5. b".toList] [1, 5] := by
  refine ⟨.next (.given 5 (.nil 6)), rfl, rfl, ?_, ?_⟩
  · refine ⟨?_, ?_⟩
    · intro l hl
      simp only [List.mem_cons, List.not_mem_nil, or_false] at hl
      rcases hl with rfl | rfl
      · exact ⟨1, ['a'], by decide⟩
      · exact ⟨5, ['b'], by decide⟩
    · intro l rest hl
      simp only [List.cons.injEq] at hl
      exact ⟨1, ['a'], by rw [← hl.1]; decide, by decide, by decide⟩
  · rintro ⟨_, h⟩
    obtain ⟨n, body, _, _, hr⟩ := h _ _ rfl
    simp [List.range'] at hr
    omega

/-- **C117.** Strong and emphasized text is put between its signs. -/
theorem marked_text (env : Env) (fuel : Nat) (body : List Node) (w w' : Worker) (t : Text)
    (h : reduceWith (eval env fuel) body w = .ok (t, w')) :
    eval env (fuel + 1) (.strong body) w = .ok (.content ("**".toList ++ t ++ "**".toList), w') ∧
    eval env (fuel + 1) (.emph body) w = .ok (.content ("_".toList ++ t ++ "_".toList), w') := by
  constructor
  · have hst : step env (eval env fuel) (.strong body) w = .ok (.content ("**".toList ++ t ++ "**".toList), w') := by
      rw [step, andThen_ok h]
      rfl
    rw [eval, andThen_ok hst]
    rfl
  · have hst : step env (eval env fuel) (.emph body) w = .ok (.content ("_".toList ++ t ++ "_".toList), w') := by
      rw [step, andThen_ok h]
      rfl
    rw [eval, andThen_ok hst]
    rfl

/-- **C117.** The whole document is the texts of its parts, one after the other. -/
theorem document_text (env : Env) (fuel : Nat) (ns : List Node) (w w' : Worker) (ts : List Text) (h : Evals (eval env fuel) ns w ts w') :
    reduceWith (eval env fuel) ns w = .ok (ts.flatten, w') := by
  induction h with
  | nil w => rfl
  | cons hn _ ih => rw [reduceWith, andThen_ok hn, andThen_ok ih]; rfl

end Tinymist.Typlite
