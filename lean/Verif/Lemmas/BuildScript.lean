import Verif.Spec.BuildScript
import Verif.Props.Pages

/-!
# Reading what is written in a build script
-/

namespace Tinymist.BuildScript

/-! ## Reading -/

theorem readFrom_append (s : State) (a b : Text) : readFrom s (a ++ b) = (readFrom s a).bind fun s => readFrom s b := by
  induction a generalizing s with
  | nil => rfl
  | cons c a ih =>
    rw [List.cons_append, readFrom, readFrom]
    cases step s c with
    | none => rfl
    | some s => exact ih s

/-- Characters that are read as they are. -/
def plain (c : Char) : Bool := c != ' ' && c != '\n' && c != '#' && c != '\'' && c != '"' && !Special c

theorem plain_iff {c : Char} (h : plain c = true) : c ≠ ' ' ∧ c ≠ '\n' ∧ c ≠ '#' ∧ c ≠ '\'' ∧ c ≠ '"' ∧ Special c = false := by
  simp only [plain, Bool.and_eq_true, bne_iff_ne, ne_eq, Bool.not_eq_true'] at h
  obtain ⟨⟨⟨⟨⟨h1, h2⟩, h3⟩, h4⟩, h5⟩, h6⟩ := h
  exact ⟨h1, h2, h3, h4, h5, h6⟩

theorem read_more (d : List (List Text)) (c : List Text) : ∀ (w u : Text), w.all plain = true →
    readFrom ⟨d, c, .word u⟩ w = some ⟨d, c, .word (u ++ w)⟩
  | [], u, _ => by rw [readFrom, List.append_nil]
  | x :: w, u, h => by
    rw [List.all_cons, Bool.and_eq_true] at h
    obtain ⟨h1, h2, _, h4, h5, h6⟩ := plain_iff h.1
    have hs : step ⟨d, c, .word u⟩ x = some ⟨d, c, .word (u ++ [x])⟩ := by
      simp only [step, h1, h2, h4, h5, h6, if_false, Bool.false_eq_true]
    rw [readFrom, hs, Option.bind_some, read_more d c w _ h.2, List.append_assoc, List.singleton_append]

theorem read_plain (d : List (List Text)) (c : List Text) {w : Text} (hne : w ≠ []) (h : w.all plain = true) :
    readFrom ⟨d, c, .between⟩ w = some ⟨d, c, .word w⟩ := by
  cases w with
  | nil => exact (hne rfl).elim
  | cons x w =>
    rw [List.all_cons, Bool.and_eq_true] at h
    obtain ⟨h1, h2, h3, h4, h5, h6⟩ := plain_iff h.1
    have hs : step ⟨d, c, .between⟩ x = some ⟨d, c, .word [x]⟩ := by
      simp only [step, h1, h2, h3, h4, h5, h6, if_false, Bool.false_eq_true]
    rw [readFrom, hs, Option.bind_some, read_more d c w _ h.2, List.singleton_append]

theorem read_escape (d : List (List Text)) (c : List Text) : ∀ (s u : Text),
    readFrom ⟨d, c, .single u⟩ (quoteEscape s) = some ⟨d, c, .single (u ++ s)⟩
  | [], u => by rw [quoteEscape, List.flatMap_nil, readFrom, List.append_nil]
  | x :: s, u => by
    have hq : quoteEscape (x :: s) = (if x = '\'' then ['\'', '"', '\'', '"', '\''] else [x]) ++ quoteEscape s := rfl
    rw [hq, readFrom_append]
    have hx : readFrom ⟨d, c, .single u⟩ (if x = '\'' then ['\'', '"', '\'', '"', '\''] else [x]) = some ⟨d, c, .single (u ++ [x])⟩ := by
      by_cases h : x = '\''
      · subst h
        rfl
      · rw [if_neg h, readFrom]
        simp only [step, h, if_false, Option.bind_some]
        rfl
    rw [hx, Option.bind_some, read_escape d c s, List.append_assoc, List.singleton_append]

/-- A word of the script is read as an argument. -/
def Reads (w x : Text) : Prop := ∀ d c, readFrom ⟨d, c, .between⟩ w = some ⟨d, c, .word x⟩

theorem reads_plain {w : Text} (h : w.all plain = true) (hne : w ≠ []) : Reads w w := fun d c => read_plain d c hne h

theorem reads_quote (s : Text) : Reads (quote s) s := by
  intro d c
  have hq : quote s = '\'' :: (quoteEscape s ++ ['\'']) := rfl
  have h1 : step ⟨d, c, .between⟩ '\'' = some ⟨d, c, .single []⟩ := rfl
  rw [hq, readFrom, h1, Option.bind_some, readFrom_append, read_escape]
  rfl

theorem quoteEscape_append (a b : Text) : quoteEscape (a ++ b) = quoteEscape a ++ quoteEscape b := List.flatMap_append

theorem reads_input (k v : Text) : Reads ("--input='".toList ++ quoteEscape k ++ ['='] ++ quoteEscape v ++ ['\''])
    ("--input=".toList ++ k ++ "=".toList ++ v) := by
  intro d c
  have e : "--input='".toList ++ quoteEscape k ++ ['='] ++ quoteEscape v ++ ['\''] =
      "--input=".toList ++ ('\'' :: (quoteEscape (k ++ '=' :: v) ++ ['\''])) := by
    rw [show "--input='".toList = "--input=".toList ++ ['\''] by decide, quoteEscape_append]
    simp only [List.append_assoc, List.cons_append, List.nil_append]
    rfl
  rw [e, readFrom_append, read_plain d c (by decide) (by decide), Option.bind_some]
  have h1 : step ⟨d, c, .word "--input=".toList⟩ '\'' = some ⟨d, c, .single "--input=".toList⟩ := rfl
  rw [readFrom, h1, Option.bind_some, readFrom_append, read_escape, Option.bind_some]
  have h2 : ∀ u, readFrom ⟨d, c, .single u⟩ ['\''] = some ⟨d, c, .word u⟩ := fun u => rfl
  rw [h2, show "=".toList = ['='] by decide]
  simp only [List.append_assoc, List.singleton_append]

theorem reads_standard (s : Standard) : Reads (['"'] ++ s.text ++ ['"']) s.text := by
  intro d c
  cases s <;> rfl

/-- The words of the script, and the arguments that are read. A word without text is none. -/
inductive Means : List Text → List Text → Prop
  | nil : Means [] []
  | word {w x ws xs} : Reads w x → Means ws xs → Means (w :: ws) (x :: xs)
  | gap {ws xs} : Means ws xs → Means ([] :: ws) xs

theorem Means.append {a x b y : List Text} (h : Means a x) (h' : Means b y) : Means (a ++ b) (x ++ y) := by
  induction h with
  | nil => exact h'
  | word hr _ ih => exact .word hr ih
  | gap _ ih => exact .gap ih

theorem Means.one {w x : Text} (h : Reads w x) : Means [w] [x] := .word h .nil

theorem Means.plain {w : Text} (h : w.all plain = true) (hne : w ≠ []) : Means [w] [w] := .one (reads_plain h hne)

theorem Means.flatMap {α : Type} {f g : α → List Text} : ∀ {l : List α}, (∀ x ∈ l, Means (f x) (g x)) → Means (l.flatMap f) (l.flatMap g)
  | [], _ => .nil
  | x :: l, h => by
    rw [List.flatMap_cons, List.flatMap_cons]
    exact (h x (List.mem_cons_self ..)).append (Means.flatMap fun y hy => h y (List.mem_cons_of_mem _ hy))

theorem ended_ne {d : List (List Text)} {c : List Text} (h : c ≠ []) : ended d c = d ++ [c] := if_neg h

theorem read_words : ∀ {ws xs : List Text}, Means ws xs → ws ≠ [] → ∀ d c,
    readFrom ⟨d, c, .between⟩ (joinWords ws ++ ['\n']) = some ⟨ended d (c ++ xs), [], .between⟩ := by
  intro ws xs h
  induction h with
  | nil => intro h; exact (h rfl).elim
  | @word w x ws xs hr hm ih =>
    intro _ d c
    cases ws with
    | nil =>
      cases hm
      rw [joinWords, readFrom_append, hr, Option.bind_some, ended_ne (by simp)]
      rfl
    | cons v rest =>
      have h1 : step ⟨d, c, .word x⟩ ' ' = some ⟨d, c ++ [x], .between⟩ := rfl
      rw [joinWords, List.append_assoc, readFrom_append, hr, Option.bind_some, List.cons_append, readFrom, h1, Option.bind_some,
        ih (by simp), List.append_assoc, List.singleton_append]
  | @gap ws xs hm ih =>
    intro _ d c
    cases ws with
    | nil =>
      cases hm
      rw [joinWords, List.nil_append, List.append_nil]
      rfl
    | cons v rest =>
      have h1 : step ⟨d, c, .between⟩ ' ' = some ⟨d, c, .between⟩ := rfl
      rw [joinWords, List.nil_append, List.cons_append, readFrom, h1, Option.bind_some, ih (by simp)]

theorem read_comment (d : List (List Text)) (c : List Text) : ∀ {t : Text}, '\n' ∉ t →
    readFrom ⟨d, c, .comment⟩ t = some ⟨d, c, .comment⟩
  | [], _ => rfl
  | x :: t, h => by
    simp only [List.mem_cons, not_or] at h
    have : step ⟨d, c, .comment⟩ x = some ⟨d, c, .comment⟩ := by
      simp only [step, if_neg (Ne.symm h.1)]
    rw [readFrom, this, Option.bind_some, read_comment d c h.2]

/-! ## The words of a task -/

theorem means_path {env : Env} {r : Res} (h : r.scheme = "file".toList) : Means [pathOf env r] [place env r] := by
  rw [pathOf, if_pos h]
  exact .one (reads_quote _)

theorem means_given {α : Type} {f g : α → Text} {name : String} (hp : name.toList.all plain = true) (hne : name.toList ≠ [])
    {l : List α} (h : ∀ x ∈ l, Means [f x] [g x]) : Means (l.flatMap fun x => [name.toList, f x]) (given name (l.map g)) := by
  have e : given name (l.map g) = l.flatMap fun x => [name.toList, g x] := by
    rw [given, List.flatMap_map]
  rw [e]
  exact Means.flatMap fun x hx => (Means.plain hp hne).append (h x hx)

theorem optional_eq (name : String) (v : Option Text) : optional name.toList v = v.toList.flatMap fun x => [name.toList, x] := by
  cases v <;> rfl

theorem means_optional {α : Type} {f g : α → Text} {name : String} (hp : name.toList.all plain = true) (hne : name.toList ≠ [])
    {o : Option α} (h : ∀ x ∈ o.toList, Means [f x] [g x]) : Means (optional name.toList (o.map f)) (given name (o.toList.map g)) := by
  cases o with
  | none => exact .nil
  | some x => exact (Means.plain hp hne).append (h x (by simp))

theorem digitChar_plain : ∀ d, d < 10 → plain (RustNum.digitChar d) = true ∧ RustNum.digitChar d ≠ '-' ∧ RustNum.digitChar d ≠ ',' := by
  decide +kernel

theorem print_plain (n : Nat) : ∀ c ∈ RustNum.print 10 n, plain c = true ∧ c ≠ '-' ∧ c ≠ ',' := by
  intro c hc
  obtain ⟨d, hd, rfl⟩ := RustNum.mem_print (by decide) n c hc
  exact digitChar_plain d hd

theorem showPages_plain (p : Pages.Pages) : (Pages.showPages p).all plain = true ∧ ',' ∉ Pages.showPages p ∧ Pages.showPages p ≠ [] := by
  have hb : ∀ b : Option Nat, ∀ c ∈ Pages.showBound b, plain c = true ∧ c ≠ ',' := by
    intro b c hc
    cases b with
    | none => cases hc
    | some n => exact ⟨(print_plain n c hc).1, (print_plain n c hc).2.2⟩
  unfold Pages.showPages
  refine ⟨?_, ?_, by simp⟩
  · rw [List.all_eq_true]
    intro c hc
    rw [List.mem_append, List.mem_cons] at hc
    rcases hc with hc | rfl | hc
    · exact (hb _ c hc).1
    · decide
    · exact (hb _ c hc).1
  · intro hc
    rw [List.mem_append, List.mem_cons] at hc
    rcases hc with hc | hc | hc
    · exact (hb _ _ hc).2 rfl
    · exact absurd hc (by decide)
    · exact (hb _ _ hc).2 rfl

theorem showInt_eq (n : Int) : showInt n = number n := by
  cases n with
  | ofNat n =>
    rw [showInt, number, if_neg (by simp)]
    rfl
  | negSucc n =>
    rw [showInt, number, if_pos (Int.negSucc_lt_zero n)]
    rfl

theorem number_plain (n : Int) : (number n).all plain = true ∧ number n ≠ [] := by
  unfold number
  constructor
  · rw [List.all_append, Bool.and_eq_true]
    constructor
    · split <;> decide
    · rw [List.all_eq_true]
      exact fun c hc => (print_plain _ c hc).1
  · simp [RustNum.print_ne_nil]

theorem means_kind (k : Kind) : Means (kindWords k) (formatOf k) := by
  cases k with
  | preview => exact .nil
  | query ext => exact .nil
  | pdf standards timestamp =>
    refine (Means.append (.plain (by decide) (by decide)) ?_).append ?_
    · exact means_given (f := fun s : Standard => ['"'] ++ s.text ++ ['"']) (by decide) (by decide) fun s _ => .one (reads_standard s)
    · refine means_optional (by decide) (by decide) fun n _ => ?_
      rw [showInt_eq]
      exact .plain (number_plain n).1 (number_plain n).2
  | _ => exact .plain (by decide) (by decide)

theorem means_transform (t : Task) : Means (t.transform.flatMap transformWords) (pagesOf t) := by
  refine Means.flatMap fun x _ => ?_
  cases x with
  | pretty => exact .plain (by decide) (by decide)
  | pages rs =>
    exact means_given (by decide) (by decide) fun p _ => .plain (showPages_plain p).1 (showPages_plain p).2.2
  | merge g => exact .nil
  | script => exact .nil

theorem means_inputs (l : List (Text × Text)) :
    Means (l.map fun kv => "--input='".toList ++ quoteEscape kv.1 ++ ['='] ++ quoteEscape kv.2 ++ ['\''])
      (l.map fun kv => "--input=".toList ++ kv.1 ++ "=".toList ++ kv.2) := by
  induction l with
  | nil => exact .nil
  | cons kv l ih => exact .word (reads_input kv.1 kv.2) ih

theorem means_fonts (b : Bool) : Means (if b then [] else ["--ignore-system-fonts".toList]) (if b then [] else ["--ignore-system-fonts".toList]) := by
  cases b with
  | true => exact .nil
  | false => exact .plain (by decide) (by decide)

theorem means_command {env : Env} {i : Input} (h : OnDisk i) (t : Task) : Means (commandWords env i t) (command env i t) := by
  have hr : ∀ r ∈ resources i, Means [pathOf env r] [place env r] := fun r hr => means_path (h r hr)
  unfold resources at hr
  refine (((((((((Means.append ?_ ?_).append ?_).append ?_).append ?_).append ?_).append ?_).append ?_).append ?_)).append ?_
  · refine .word (reads_plain (by decide) (by decide)) (.word (reads_plain (by decide) (by decide)) (.word (reads_plain (by decide) (by decide))
      (.word (reads_plain (by decide) (by decide)) (.word (reads_quote _) ?_))))
    exact hr _ (by simp)
  · exact means_optional (by decide) (by decide) fun r hm => hr r (by simp at hm ⊢; simp [hm])
  · exact means_inputs _
  · exact means_given (by decide) (by decide) fun r hm => hr r (by simp [hm])
  · exact means_fonts _
  · exact means_optional (by decide) (by decide) fun r hm => hr r (by simp at hm ⊢; simp [hm])
  · exact means_optional (by decide) (by decide) fun r hm => hr r (by simp at hm ⊢; simp [hm])
  · have := means_optional (f := quote) (g := id) (name := "--output") (by decide) (by decide) (o := t.output) fun s _ => .one (reads_quote s)
    rw [List.map_id] at this
    exact this
  · exact means_transform t
  · exact means_kind t.kind

end Tinymist.BuildScript
