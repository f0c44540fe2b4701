import Verif.Spec.Viewers
import Verif.Lemmas.RustNum

namespace Tinymist.Viewers
open Spec

variable {F P L : Type}

/-! ## Splitting -/

theorem splitOn_not_mem {c : Char} {s : Text} (h : c ∉ s) : splitOn c s = [s] := by
  induction s with
  | nil => rfl
  | cons x xs ih =>
    rw [splitOn, if_neg (by intro e; exact h (by simp [e])), ih (fun hm => h (List.mem_cons_of_mem _ hm))]

theorem splitOn_append {c : Char} {a : Text} (h : c ∉ a) (b : Text) :
    splitOn c (a ++ c :: b) = a :: splitOn c b := by
  induction a with
  | nil => simp [splitOn]
  | cons x xs ih =>
    rw [List.cons_append, splitOn, if_neg (by intro e; exact h (by simp [e])),
      ih (fun hm => h (List.mem_cons_of_mem _ hm))]

theorem first_split {c : Char} {s : Text} (h : c ∈ s) : ∃ a b, s = a ++ c :: b ∧ c ∉ a := by
  induction s with
  | nil => cases h
  | cons x xs ih =>
    by_cases hx : x = c
    · exact ⟨[], xs, by simp [hx], by simp⟩
    · have : c ∈ xs := by
        rcases List.mem_cons.mp h with e | e
        · exact absurd e.symm hx
        · exact e
      obtain ⟨a', b', e, ha⟩ := ih this
      refine ⟨x :: a', b', by rw [e]; rfl, ?_⟩
      intro hm
      rcases List.mem_cons.mp hm with e | e
      · exact hx e.symm
      · exact ha e

theorem splitOn_ne_nil (c : Char) (s : Text) : splitOn c s ≠ [] := by
  cases s with
  | nil => simp [splitOn]
  | cons x xs =>
    intro hs
    rw [splitOn] at hs
    split at hs
    · cases hs
    · split at hs <;> cases hs

theorem splitOn_second_none {c : Char} {s : Text} : (splitOn c s)[1]? = none ↔ c ∉ s := by
  by_cases h : c ∈ s
  · obtain ⟨a, b, rfl, ha⟩ := first_split h
    rw [splitOn_append ha]
    refine iff_of_false ?_ (fun hn => hn h)
    cases hs : splitOn c b with
    | nil => exact absurd hs (splitOn_ne_nil c b)
    | cons _ _ => simp
  · rw [splitOn_not_mem h]
    simp [h]

theorem trim_word {s : Text} (h : ∀ c ∈ s, c.isWhitespace = false) : trim s = s := by
  have drop : ∀ s : Text, (∀ c ∈ s, c.isWhitespace = false) → s.dropWhile Char.isWhitespace = s := by
    intro s hs
    cases s with
    | nil => rfl
    | cons x xs => rw [List.dropWhile_cons, if_neg (by simp [hs x (List.mem_cons_self ..)])]
  rw [trim, drop s h, drop s.reverse (fun c hc => h c (List.mem_reverse.mp hc)), List.reverse_reverse]

theorem startsWith_iff {p s : Text} : startsWith p s = true ↔ p <+: s := by
  rw [startsWith, List.isPrefixOf_iff_prefix]

theorem print_chars {n : Nat} : ∀ c ∈ RustNum.print 10 n, c.isWhitespace = false ∧ c ≠ ',' ∧ c ≠ ' ' := by
  intro c hc
  obtain ⟨d, hd, rfl⟩ := RustNum.mem_print (by decide) n c hc
  have : ∀ d < 10, (RustNum.digitChar d).isWhitespace = false ∧ RustNum.digitChar d ≠ ',' ∧ RustNum.digitChar d ≠ ' ' := by
    decide
  exact this d hd

theorem print_no_space {n : Nat} : ' ' ∉ RustNum.print 10 n := fun h => (print_chars _ h).2.2 rfl

theorem print_no_comma {n : Nat} : ',' ∉ RustNum.print 10 n := fun h => (print_chars _ h).2.1 rfl

theorem parse_page {n : Nat} (h : n < 2 ^ 64) : RustNum.parse 10 usizeMax (RustNum.print 10 n) = some n :=
  RustNum.parse_print (by decide) (by decide) _ _ (by unfold usizeMax; omega)

/-! ## The texts -/

theorem not_current_of_prefix {k m : Text} (hk : k <+: m) (hne : ¬ k <+: "current".toList) : m ≠ "current".toList :=
  fun e => hne (e ▸ hk)

/-- Two words of which neither begins the other do not both begin a text. -/
theorem prefix_excl {a b m : Text} (ha : a <+: m) (h1 : ¬ a <+: b) (h2 : ¬ b <+: a) : ¬ b <+: m := by
  intro hb
  rcases List.prefix_or_prefix_of_prefix ha hb with h | h
  · exact h1 h
  · exact h2 h

theorem onText_current (rd : Reads F P L) : onText rd "current".toList = .asks .renderAll := by
  rw [onText, if_pos rfl]

theorem onText_source (rd : Reads F P L) {m : Text} (h : "srclocation".toList <+: m) :
    onText rd m = match (splitOn ' ' m)[1]? with
      | none => .panics
      | some t => .asks (.jumpToSource (trim t)) := by
  rw [onText, if_neg (not_current_of_prefix h (by decide)), if_pos (startsWith_iff.mpr h)]
  rfl

theorem onText_outline (rd : Reads F P L) {m : Text} (h : "outline-sync".toList <+: m) :
    onText rd m = outlineSync rd m := by
  have h1 : ¬ startsWith "srclocation".toList m = true := by
    rw [startsWith_iff]; exact prefix_excl h (by decide) (by decide)
  rw [onText, if_neg (not_current_of_prefix h (by decide)), if_neg h1, if_pos (startsWith_iff.mpr h)]

theorem onText_path (rd : Reads F P L) {m : Text} (h : "srcpath".toList <+: m) :
    onText rd m = askJson rd.path .resolvePath m := by
  have h1 : ¬ startsWith "srclocation".toList m = true := by
    rw [startsWith_iff]; exact prefix_excl h (by decide) (by decide)
  have h2 : ¬ startsWith "outline-sync".toList m = true := by
    rw [startsWith_iff]; exact prefix_excl h (by decide) (by decide)
  rw [onText, if_neg (not_current_of_prefix h (by decide)), if_neg h1, if_neg h2, if_pos (startsWith_iff.mpr h)]

theorem onText_point (rd : Reads F P L) {m : Text} (h : "src-point".toList <+: m) :
    onText rd m = askJson rd.point .resolvePoint m := by
  have h1 : ¬ startsWith "srclocation".toList m = true := by
    rw [startsWith_iff]; exact prefix_excl h (by decide) (by decide)
  have h2 : ¬ startsWith "outline-sync".toList m = true := by
    rw [startsWith_iff]; exact prefix_excl h (by decide) (by decide)
  have h3 : ¬ startsWith "srcpath".toList m = true := by
    rw [startsWith_iff]; exact prefix_excl h (by decide) (by decide)
  rw [onText, if_neg (not_current_of_prefix h (by decide)), if_neg h1, if_neg h2, if_neg h3,
    if_pos (startsWith_iff.mpr h)]

/-! ## What the page reads -/

theorem cutComma_append {a : Text} (h : ',' ∉ a) (b : Text) : cutComma (a ++ ',' :: b) = some (a, b) := by
  induction a with
  | nil => simp [cutComma]
  | cons x xs ih =>
    rw [List.cons_append, cutComma, if_neg (by intro e; exact h (by simp [e])),
      ih (fun hm => h (List.mem_cons_of_mem _ hm))]
    rfl

theorem splitOn_join {ts : List Text} (hne : ts ≠ []) (h : ∀ t ∈ ts, ',' ∉ t) : splitOn ',' (joinComma ts) = ts := by
  induction ts with
  | nil => exact absurd rfl hne
  | cons t ts ih =>
    cases ts with
    | nil => exact splitOn_not_mem (h t (List.mem_cons_self ..))
    | cons u us =>
      rw [joinComma, splitOn_append (h t (List.mem_cons_self ..)),
        ih (by simp) (fun x hx => h x (List.mem_cons_of_mem _ hx))]
      exact fun e => by cases e

/-- A text that begins and ends with what is no white space is not trimmed. -/
theorem trim_ends {a m b : Text} (ha : a ≠ []) (hb : b ≠ []) (h1 : ∀ c ∈ a, c.isWhitespace = false)
    (h2 : ∀ c ∈ b, c.isWhitespace = false) : trim (a ++ m ++ b) = a ++ m ++ b := by
  have drop : ∀ s t : Text, s ≠ [] → (∀ c ∈ s, c.isWhitespace = false) →
      (s ++ t).dropWhile Char.isWhitespace = s ++ t := by
    intro s t hs hw
    cases s with
    | nil => exact absurd rfl hs
    | cons x xs => rw [List.cons_append, List.dropWhile_cons, if_neg (by simp [hw x (List.mem_cons_self ..)])]
  rw [trim, List.append_assoc, drop a _ ha h1, ← List.append_assoc, List.reverse_append,
    drop b.reverse _ (by simpa using hb) (fun c hc => h2 c (List.mem_reverse.mp hc)), ← List.reverse_append,
    List.reverse_reverse]

theorem space_ws : (' ' : Char).isWhitespace = true := by decide

variable {rd : Reads F P L} {sh : F → Text}

theorem posText_no_comma (hp : Prints rd sh) (p : Pos F) : ',' ∉ posText sh p := by
  intro h
  rw [posText] at h
  simp only [List.mem_append, List.mem_cons] at h
  rcases h with h | h | h
  · rcases h with h | h | h
    · exact print_no_comma h
    · exact absurd h (by decide)
    · exact (hp.word _ _ h).2 rfl
  · exact absurd h (by decide)
  · exact (hp.word _ _ h).2 rfl

theorem float_ne_nil (hp : Prints rd sh) (hn : rd.float [] = none) (x : F) : sh x ≠ [] := by
  intro e
  have := hp.reads x
  rw [e, hn] at this
  cases this

theorem float_no_space (hp : Prints rd sh) (x : F) : ' ' ∉ sh x := by
  intro h
  have := (hp.word x _ h).1
  rw [space_ws] at this
  cases this

theorem trim_posText (hp : Prints rd sh) (hn : rd.float [] = none) (p : Pos F) : trim (posText sh p) = posText sh p := by
  have := trim_ends (a := RustNum.print 10 p.page) (m := ' ' :: sh p.x ++ [' ']) (b := sh p.y)
    (RustNum.print_ne_nil (by decide) _) (float_ne_nil hp hn p.y) (fun c hc => (print_chars c hc).1)
    (fun c hc => (hp.word _ c hc).1)
  rw [posText]
  simpa using this

theorem posText_ne_nil (p : Pos F) : posText sh p ≠ [] := by
  rw [posText]
  simp

theorem readPos_posText (hp : Prints rd sh) (p : Pos F) (hs : p.page ≤ maxSafe) : readPos rd (posText sh p) = some p := by
  have : splitOn ' ' (posText sh p) = [RustNum.print 10 p.page, sh p.x, sh p.y] := by
    rw [posText, List.append_assoc, List.cons_append, splitOn_append print_no_space,
      splitOn_append (float_no_space hp p.x), splitOn_not_mem (float_no_space hp p.y)]
  simp only [readPos, this, RustNum.parse_print (b := 10) (by decide) (by decide) maxSafe p.page hs, hp.reads]

theorem pieces_positions (hp : Prints rd sh) (hn : rd.float [] = none) {ps : List (Pos F)} (hne : ps ≠ []) :
    pieces (joinComma (ps.map (posText sh))) = ps.map (posText sh) := by
  rw [pieces, splitOn_join (by simpa using hne)]
  · have h1 : (ps.map (posText sh)).map trim = ps.map (posText sh) := by
      rw [List.map_map]
      exact List.map_congr_left fun p _ => trim_posText hp hn p
    rw [h1, List.filter_eq_self]
    intro t ht
    obtain ⟨p, _, rfl⟩ := List.mem_map.mp ht
    cases h : posText sh p with
    | nil => exact absurd h (posText_ne_nil p)
    | cons _ _ => rfl
  · intro t ht
    obtain ⟨p, _, rfl⟩ := List.mem_map.mp ht
    exact posText_no_comma hp p

theorem dist_apart (a b : Nat) : dist a b = apart a b := by
  unfold dist apart
  split <;> omega

/-- What folding over positions keeps: the chosen one is the last of the nearest. -/
theorem choose_spec (hp : Prints rd sh) (cur : Nat) (ps : List (Pos F)) (hs : ∀ p ∈ ps, p.page ≤ maxSafe) (acc : Pos F) :
    let r := (ps.map (posText sh)).foldl (fun acc t =>
      match readPos rd t with
      | some p => if dist p.page cur ≤ dist acc.page cur then p else acc
      | none => acc) acc
    (r = acc ∧ ∀ p ∈ ps, dist acc.page cur < dist p.page cur) ∨
    (∃ pre post, ps = pre ++ r :: post ∧ dist r.page cur ≤ dist acc.page cur ∧
      (∀ p ∈ pre, dist r.page cur ≤ dist p.page cur) ∧ ∀ p ∈ post, dist r.page cur < dist p.page cur) := by
  induction ps generalizing acc with
  | nil => exact Or.inl ⟨rfl, fun p hp => by cases hp⟩
  | cons q qs ih =>
    simp only [List.map_cons, List.foldl_cons, readPos_posText hp q (hs q (List.mem_cons_self ..))]
    by_cases hq : dist q.page cur ≤ dist acc.page cur
    · rw [if_pos hq]
      rcases ih (fun p hp => hs p (List.mem_cons_of_mem _ hp)) q with ⟨h1, h2⟩ | ⟨pre, post, h1, h2, h3, h4⟩
      · refine Or.inr ⟨[], qs, by rw [h1]; rfl, ?_, (fun p hp => (by cases hp)), ?_⟩
        · rw [h1]; exact hq
        · rw [h1]; exact h2
      · refine Or.inr ⟨q :: pre, post, by rw [List.cons_append, ← h1], by omega, ?_, h4⟩
        intro p hp
        rcases List.mem_cons.mp hp with rfl | hp
        · exact h2
        · exact h3 p hp
    · rw [if_neg hq]
      rcases ih (fun p hp => hs p (List.mem_cons_of_mem _ hp)) acc with ⟨h1, h2⟩ | ⟨pre, post, h1, h2, h3, h4⟩
      · refine Or.inl ⟨h1, ?_⟩
        intro p hp
        rcases List.mem_cons.mp hp with rfl | hp
        · omega
        · exact h2 p hp
      · refine Or.inr ⟨q :: pre, post, by rw [List.cons_append, ← h1], h2, ?_, h4⟩
        intro p hp
        rcases List.mem_cons.mp hp with rfl | hp
        · omega
        · exact h3 p hp

/-! ## The data plane -/

def isCounted : Phase → Bool
  | .ended => false
  | _ => true

/-- While the loop runs, the counter counts the connections that did not end, and those whose end is not noted. -/
def Inv (s : State) : Prop := s.alive = (s.conns.countP isCounted : Int) + s.notes

theorem countP_set' {p : Phase → Bool} {l : List Phase} {i : Nat} {a b : Phase} (h : l[i]? = some a) :
    (l.set i b).countP p + (if p a then 1 else 0) = l.countP p + (if p b then 1 else 0) := by
  induction l generalizing i with
  | nil => simp at h
  | cons x xs ih =>
    cases i with
    | zero =>
      simp only [List.getElem?_cons_zero, Option.some.injEq] at h
      subst h
      simp only [List.set_cons_zero, List.countP_cons]
      omega
    | succ i =>
      rw [List.getElem?_cons_succ] at h
      have := ih h
      simp only [List.set_cons_succ, List.countP_cons]
      omega

theorem inv_start (c : Bool) : Inv (start c) := by simp [Inv, start]

theorem inv_step {s s' : State} {e : Event} (hi : Inv s) (h : step rd s e = some s') : Inv s' := by
  unfold Inv at hi ⊢
  cases e with
  | connect =>
    simp only [step] at h
    split at h
    · cases h
      simp only [List.countP_append, List.countP_cons, List.countP_nil, isCounted, if_true]
      omega
    · cases h
  | upgraded i ok =>
    simp only [step] at h
    split at h
    · rename_i hc
      cases h
      have := countP_set' (p := isCounted) (b := if ok then Phase.isOpen else Phase.lost) hc
      cases ok <;> simp [isCounted] at this ⊢ <;> omega
    · cases h
  | frame i f =>
    simp only [step] at h
    split at h
    · rename_i hc
      split at h
      · cases h; exact hi
      · cases h
        have := countP_set' (p := isCounted) (b := Phase.ended) hc
        simp [isCounted] at this ⊢
        omega
    · cases h
  | noted =>
    simp only [step] at h
    split at h
    · rename_i hc
      simp only [Bool.and_eq_true, decide_eq_true_eq] at hc
      cases h
      simp only
      omega
    · cases h
  | idle =>
    simp only [step] at h
    split at h
    · cases h; exact hi
    · cases h
  | stop =>
    simp only [step] at h
    split at h
    · cases h; exact hi
    · cases h

theorem run_ind {Q : State → Prop} (hstep : ∀ s e s', Q s → step rd s e = some s' → Q s') {s s' : State} {es : List Event}
    (h0 : Q s) (h : run rd s es = some s') : Q s' := by
  induction es generalizing s with
  | nil => cases h; exact h0
  | cons e es ih =>
    rw [run] at h
    cases hs : step rd s e with
    | none => rw [hs] at h; cases h
    | some t => rw [hs] at h; exact ih (hstep s e t h0 hs) h

theorem inv_happens {c : Bool} {es : List Event} {s : State} (h : Happens rd c es s) : Inv s :=
  run_ind (fun _ _ _ hi hs => inv_step hi hs) (inv_start c) h

theorem canIdle_step {s s' : State} {e : Event} (h : step rd s e = some s') : s'.canIdle = s.canIdle := by
  cases e <;> simp only [step] at h <;> split at h <;> first | (cases h; rfl) | (split at h <;> cases h <;> rfl) | cases h

end Tinymist.Viewers
