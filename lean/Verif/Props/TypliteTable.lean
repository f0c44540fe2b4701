import Verif.Props.TypliteCode

/-!
# C112, C113: tables, boxes and calls
-/

namespace Tinymist.Typlite

theorem andThen_ok {α β : Type} {m : M α} {f : α → M β} {w w' : Worker} {a : α} (h : m w = .ok (a, w')) :
    andThen m f w = f a w' := by
  rw [andThen, h]

theorem andThen_error {α β : Type} {m : M α} {f : α → M β} {w : Worker} {e : Stop} (h : m w = .error e) :
    andThen m f w = .error e := by
  rw [andThen, h]

theorem find_key {key : Text} {a b : List (Text × Node)} {n : Node} (h : ∀ p ∈ a, p.1 ≠ key) :
    (a ++ (key, n) :: b).find? (fun p => decide (p.1 = key)) = some (key, n) := by
  rw [List.find?_append, List.find?_eq_none.mpr (by simpa using h)]
  simp

theorem find_none {key : Text} {a : List (Text × Node)} (h : ∀ p ∈ a, p.1 ≠ key) :
    a.find? (fun p => decide (p.1 = key)) = none := List.find?_eq_none.mpr (by simpa using h)

theorem evalAll_of {ev : Node → M Value} {ns : List Node} {w w' : Worker} {ts : List Text} (h : Evals ev ns w ts w') :
    evalAll ev ns w = .ok (ts, w') := by
  induction h with
  | nil w => rfl
  | cons h1 _ ih =>
    rw [evalAll, andThen_ok h1, andThen_ok ih]
    rfl

theorem tableArgs_header (ev : Node → M Value) (kind src : Text) (pos ns : List Node) (named : List (Text × Node))
    (h c : List Text) : tableArgs ev kind (.call src (.field kind "header".toList) pos named :: ns) h c =
      andThen (evalAll ev pos) fun t => tableArgs ev kind ns (h ++ t) c := by
  rw [tableArgs, if_pos rfl]

theorem tableArgs_plain {ev : Node → M Value} {kind : Text} {n : Node} (hp : Plain kind n) (ns : List Node) (h c : List Text) :
    tableArgs ev kind (n :: ns) h c = andThen (ev n) fun v => tableArgs ev kind ns h (c ++ [value v]) := by
  cases n with
  | call src callee pos named =>
    have h1 : callee ≠ .field kind "header".toList := fun e => (hp src pos named).1 (by rw [e])
    have h2 : callee ≠ .field kind "footer".toList := fun e => (hp src pos named).2 (by rw [e])
    rw [tableArgs, if_neg h1]
    congr 1
    funext v
    rw [if_neg h2]
  | _ => rfl

theorem tableArgs_of {ev : Node → M Value} {kind : Text} {ns : List Node} {w w' : Worker} {hs cs : List Text}
    (h : Arranged ev kind ns w hs cs w') : ∀ h0 c0, tableArgs ev kind ns h0 c0 w = .ok ((h0 ++ hs, c0 ++ cs), w') := by
  induction h with
  | nil w => intro h0 c0; simp [tableArgs, ret]
  | cell hp h1 _ ih =>
    intro h0 c0
    rw [tableArgs_plain hp, andThen_ok h1, ih]
    simp
  | header h1 _ ih =>
    intro h0 c0
    rw [tableArgs_header, andThen_ok (evalAll_of h1), ih]
    simp

theorem chunks_rows {n : Nat} (hn : 0 < n) : ∀ (fuel : Nat) (l : List Text), l.length ≤ fuel → InRows n l (chunks n fuel l) := by
  intro fuel
  induction fuel with
  | zero =>
    intro l hl
    have : l = [] := List.length_eq_zero_iff.mp (by omega)
    subst this
    exact ⟨rfl, by simp [chunks], by simp [chunks]⟩
  | succ fuel ih =>
    intro l hl
    cases l with
    | nil => exact ⟨rfl, by simp [chunks], by simp [chunks]⟩
    | cons c cs =>
      have hlen : ((c :: cs).drop n).length ≤ fuel := by
        rw [List.length_drop]
        simp only [List.length_cons] at hl ⊢
        omega
      obtain ⟨h1, h2, h3⟩ := ih _ hlen
      rw [chunks]
      refine ⟨?_, ?_, ?_⟩
      · rw [List.flatten_cons, h1, List.take_append_drop]
      · intro r hr
        rcases List.mem_cons.mp hr with rfl | hr
        · refine ⟨?_, ?_⟩
          · cases n with
            | zero => omega
            | succ n => simp
          · rw [List.length_take]
            omega
        · exact h2 r hr
      · intro a b r he hb
        cases a with
        | nil =>
          simp only [List.nil_append, List.cons.injEq] at he
          rw [← he.1, List.length_take]
          have : (c :: cs).drop n ≠ [] := by
            intro e
            rw [e] at he
            have : chunks n fuel [] = [] := by cases fuel <;> rfl
            rw [this] at he
            exact hb he.2.symm
          have := List.length_pos_iff.mpr this
          rw [List.length_drop] at this
          omega
        | cons x a =>
          simp only [List.cons_append, List.cons.injEq] at he
          exact h3 a b r he.2 hb

/-- Rows are determined. -/
theorem rows_unique {n : Nat} {cells : List Text} {a b : List (List Text)} (ha : InRows n cells a) (hb : InRows n cells b) : a = b := by
  induction a generalizing cells b with
  | nil =>
    cases b with
    | nil => rfl
    | cons r b =>
      have h1 : cells = [] := by simpa using ha.1.symm
      have h2 := hb.1
      rw [h1] at h2
      simp at h2
      exact absurd h2.1 (hb.2.1 r (by simp)).1
  | cons x a ih =>
    cases b with
    | nil =>
      have h1 : cells = [] := by simpa using hb.1.symm
      have h2 := ha.1
      rw [h1] at h2
      simp at h2
      exact absurd h2.1 (ha.2.1 x (by simp)).1
    | cons y b =>
      have he : x ++ a.flatten = y ++ b.flatten := by
        have := ha.1.trans hb.1.symm
        simpa using this
      have hlen : x.length = y.length := by
        have hx := (ha.2.1 x (by simp)).2
        have hy := (hb.2.1 y (by simp)).2
        have full : ∀ (z : List Text) (zs : List (List Text)), InRows n cells (z :: zs) → zs ≠ [] → z.length = n :=
          fun z zs h hne => h.2.2 [] zs z rfl hne
        by_cases h1 : a = []
        · by_cases h2 : b = []
          · subst h1 h2
            simp at he
            rw [he]
          · have := full y b hb h2
            have := congrArg List.length he
            subst h1
            simp only [List.length_append, List.flatten_nil, List.length_nil] at this
            omega
        · have h3 := full x a ha h1
          by_cases h2 : b = []
          · have := congrArg List.length he
            subst h2
            simp only [List.length_append, List.flatten_nil, List.length_nil] at this
            omega
          · rw [h3, full y b hb h2]
      have hxy := List.append_inj he hlen
      have tail : ∀ (z : List Text) (zs : List (List Text)), InRows n cells (z :: zs) → InRows n zs.flatten zs := by
        intro z zs h
        refine ⟨rfl, fun r hr => h.2.1 r (List.mem_cons_of_mem _ hr), ?_⟩
        intro p q r he hq
        exact h.2.2 (z :: p) q r (by rw [he]; rfl) hq
      have := ih (tail x a ha) (by rw [hxy.2]; exact tail y b hb)
      rw [hxy.1, this]

theorem columnsOf_of {named : List (Text × Node)} {c : Nat} (h : Columns named c) (w : Worker) :
    columnsOf named w = .ok (c, w) := by
  cases h with
  | one h => rw [columnsOf, find_none h]; rfl
  | sizes n h => rw [columnsOf, find_key h]; rfl
  | number n h =>
    rw [columnsOf, find_key h]
    simp only
    rw [if_neg (by omega)]
    rfl

theorem columnsOf_int (n : Nat) (w : Worker) : columnsOf [("columns".toList, .int n)] w = .ok (n, w) :=
  columnsOf_of (.number (a := []) (b := []) n (by simp)) w

theorem columnsOf_array (n : Nat) (w : Worker) : columnsOf [("columns".toList, .array n)] w = .ok (n, w) :=
  columnsOf_of (.sizes (a := []) (b := []) n (by simp)) w

theorem row_td (r : List Text) : "    <tr>\n".toList ++ r.flatMap (fun c => "      <td>".toList ++ c ++ "</td>\n".toList) ++
    "    </tr>\n".toList = htmlRow "td" r := rfl

theorem row_th (r : List Text) : "    <tr>\n".toList ++ r.flatMap (fun c => "      <th>".toList ++ c ++ "</th>\n".toList) ++
    "    </tr>\n".toList = htmlRow "th" r := rfl

theorem thead_open : "  <thead>\n    <tr>\n".toList = "  <thead>\n".toList ++ "    <tr>\n".toList := by decide

theorem thead_close : "    </tr>\n  </thead>\n".toList = "    </tr>\n".toList ++ "  </thead>\n".toList := by decide

theorem tableText_eq (n : Nat) (header cells : List Text) :
    tableText n header cells = htmlTable header (chunks n cells.length cells) := by
  unfold tableText htmlTable
  have hb : (fun row => "    <tr>\n".toList ++ List.flatMap (fun c => "      <td>".toList ++ c ++ "</td>\n".toList) row ++
      "    </tr>\n".toList) = htmlRow "td" := by
    funext r
    exact row_td r
  rw [hb]
  congr 3
  congr 1
  by_cases h : header = []
  · subst h
    rfl
  · rw [if_neg h, if_neg (by simpa using h), ← row_th, thead_open, thead_close]
    simp only [List.append_assoc]

theorem eval_table (env : Env) (fuel : Nat) (src kind : Text) (pos : List Node) (named : List (Text × Node)) (w : Worker)
    (hk : kind = "table".toList ∨ kind = "grid".toList) :
    step env (eval env fuel) (.call src (.ident kind) pos named) w = table (eval env fuel) kind pos named w := by
  rcases hk with rfl | rfl <;> rfl

/-- **C112.** A table has all cells in their order, in rows of as many as there are columns, and all cells of headers in one row above
them. This is so for tables with at least one column and without footers. Missing: footers. -/
theorem table_partial (env : Env) (fuel : Nat) (src kind : Text) (pos : List Node) (named : List (Text × Node)) (w w' : Worker)
    (c : Nat) (hs cs : List Text) (rows : List (List Text)) (hk : kind = "table".toList ∨ kind = "grid".toList)
    (hc : Columns named c) (hpos : 0 < c) (ha : Arranged (eval env fuel) kind pos w hs cs w') (hr : InRows c cs rows) :
    eval env (fuel + 1) (.call src (.ident kind) pos named) w = .ok (.content (htmlTable hs rows), w') := by
  have ht : table (eval env fuel) kind pos named w = .ok (.content (htmlTable hs rows), w') := by
    rw [table, andThen_ok (columnsOf_of hc w), andThen_ok (tableArgs_of ha [] [])]
    simp only [List.nil_append]
    rw [if_neg (by omega), tableText_eq, rows_unique (chunks_rows hpos _ cs (Nat.le_refl _)) hr]
    rfl
  rw [eval, andThen_ok ((eval_table env fuel src kind pos named w hk).trans ht)]
  rfl

/-- A table of two columns with a header and three cells. -/
example (env : Env) (w : Worker) :
    eval env 3 (.call [] (.ident "table".toList) [.call [] (.field "table".toList "header".toList) [.text ['h']] [],
      .text ['a'], .text ['b'], .text ['c']] [("columns".toList, .int 2)]) w =
      .ok (.content (htmlTable [['h']] [[['a'], ['b']], [['c']]]), w) := by
  have plain : ∀ t, Plain "table".toList (.text t) := fun t src pos named => ⟨nofun, nofun⟩
  refine table_partial env 2 [] _ _ _ w w 2 [['h']] [['a'], ['b'], ['c']] _ (Or.inl rfl) (.number (a := []) 2 (by simp)) (by omega)
    (.header (.cons (v := .content ['h']) rfl (.nil w)) (.cell (v := .content ['a']) (plain _) rfl
      (.cell (v := .content ['b']) (plain _) rfl (.cell (v := .content ['c']) (plain _) rfl (.nil w))))) ⟨rfl, ?_, ?_⟩
  · intro r hr
    simp only [List.mem_cons, List.not_mem_nil, or_false] at hr
    rcases hr with rfl | rfl <;> simp
  · intro a b r he hb
    cases a with
    | nil =>
      simp only [List.nil_append, List.cons.injEq] at he
      rw [← he.1]
      rfl
    | cons x a =>
      cases a with
      | nil =>
        simp only [List.cons_append, List.nil_append, List.cons.injEq] at he
        exact absurd he.2.2.symm hb
      | cons y a => simp at he

/-- **C112.** The cells of a footer come after an empty cell: of a table with two columns, a row `a`, `b` and a footer `c`, `d`, the
second row is empty and `c`, and `d` is alone in a third. -/
theorem footer_shifted (env : Env) (w : Worker) :
    ∃ w', eval env 3 (.call [] (.ident "table".toList) [.text ['a'], .text ['b'],
      .call [] (.field "table".toList "footer".toList) [.text ['c'], .text ['d']] []] [("columns".toList, .int 2)]) w =
      .ok (.content (htmlTable [] [[['a'], ['b']], [[], ['c']], [['d']]]), w') := by
  refine ⟨{ w with prepend := w.prepend ++ ['\n'] }, ?_⟩
  have ht : table (eval env 2) "table".toList [.text ['a'], .text ['b'],
      .call [] (.field "table".toList "footer".toList) [.text ['c'], .text ['d']] []] [("columns".toList, .int 2)] w =
      .ok (.content (htmlTable [] [[['a'], ['b']], [[], ['c']], [['d']]]), { w with prepend := w.prepend ++ ['\n'] }) := by
    have ha : tableArgs (eval env 2) "table".toList [.text ['a'], .text ['b'],
      .call [] (.field "table".toList "footer".toList) [.text ['c'], .text ['d']] []] [] [] w =
        .ok (([], [['a'], ['b'], [], ['c'], ['d']]), { w with prepend := w.prepend ++ ['\n'] }) := rfl
    rw [table, andThen_ok (show columnsOf [("columns".toList, .int 2)] w = .ok (2, w) from columnsOf_int 2 w), andThen_ok ha]
    simp only
    rw [if_neg (by decide), tableText_eq]
    rfl
  rw [eval, andThen_ok ((eval_table env 2 [] _ _ _ w (Or.inl rfl)).trans ht)]
  rfl

/-- **C112.** A table with no columns, or with fewer than none, is not reported: the program panics. -/
theorem no_columns_panic (env : Env) (fuel : Nat) (src kind : Text) (w : Worker) (hk : kind = "table".toList ∨ kind = "grid".toList) :
    eval env (fuel + 1) (.call src (.ident kind) [] [("columns".toList, .int 0)]) w = .error .panic ∧
    eval env (fuel + 1) (.call src (.ident kind) [] [("columns".toList, .array 0)]) w = .error .panic ∧
    ∀ k : Nat, eval env (fuel + 1) (.call src (.ident kind) [] [("columns".toList, .int (-(k + 1)))]) w = .error .panic := by
  refine ⟨?_, ?_, ?_⟩
  · rw [eval, andThen_error (e := .panic)]
    rw [eval_table env fuel src kind _ _ w hk, table, andThen_ok (show columnsOf [("columns".toList, .int 0)] w = .ok (0, w) from columnsOf_int 0 w)]
    rfl
  · rw [eval, andThen_error (e := .panic)]
    rw [eval_table env fuel src kind _ _ w hk, table, andThen_ok (columnsOf_array 0 w)]
    rfl
  · intro k
    rw [eval, andThen_error (e := .panic)]
    rw [eval_table env fuel src kind _ _ w hk, table, andThen_error]
    have : columnsOf [("columns".toList, .int (-(k + 1)))] = if (-((k : Int) + 1)) < 0 then fail .panic else
      ret (-((k : Int) + 1)).toNat := rfl
    rw [this, if_pos (by omega)]
    rfl

/-! ## Arguments -/

theorem arg_given {key : Text} {pos rest : List Node} {named : List (Text × Node)} {n : Node} (h : Given key pos named n rest)
    (w : Worker) : arg key pos named w = .ok ((n, rest), w) := by
  cases h with
  | name h => rw [arg, getArg.eq_def, find_key h]; rfl
  | next h => rw [arg, getArg.eq_def, find_none h]; rfl

theorem contentArg_given {ev : Node → M Value} {key : Text} {pos rest : List Node} {named : List (Text × Node)} {n : Node} {v : Value}
    {w w' : Worker} (h : Given key pos named n rest) (hv : ev n w = .ok (v, w')) :
    contentArg ev key pos named w = .ok (value v, w') := by
  rw [contentArg, andThen_ok (arg_given h w)]
  simp only
  rw [andThen_ok hv]
  rfl

/-- What a call of a function of the library gives is what the function gives, if that is some text. -/
theorem eval_call {env : Env} {fuel : Nat} {src name : Text} {pos : List Node} {named : List (Text × Node)} {w w' : Worker} {t : Text}
    (h : library env.gfm (eval env fuel) name pos named w = .ok (.content t, w')) :
    eval env (fuel + 1) (.call src (.ident name) pos named) w = .ok (.content t, w') := by
  rw [eval, andThen_ok (a := .content t) (w' := w') h]
  rfl

/-- **C113.** A link shows its body and leads to its destination, however the two are given. -/
theorem link_call (env : Env) (fuel : Nat) (src : Text) (pos rest rest' : List Node) (named : List (Text × Node)) (w w' : Worker)
    (dest : Text) (body : Node) (v : Value) (hd : Given "dest".toList pos named (.str dest) rest)
    (hb : Given "body".toList rest named body rest') (hv : eval env fuel body w = .ok (v, w')) :
    eval env (fuel + 1) (.call src (.ident "link".toList) pos named) w =
      .ok (.content ('[' :: (value v ++ [']', '('] ++ dest ++ [')'])), w') := by
  apply eval_call
  have : library env.gfm (eval env fuel) "link".toList pos named =
      andThen (arg "dest".toList pos named) fun (d, pos) => andThen (asStr d) fun dest =>
        andThen (contentArg (eval env fuel) "body".toList pos named) fun body =>
          ret (.content (['['] ++ body ++ [']', '('] ++ dest ++ [')'])) := rfl
  rw [this, andThen_ok (arg_given hd w)]
  simp only
  rw [andThen_ok (show asStr (.str dest) w = .ok (dest, w) from rfl), andThen_ok (contentArg_given hb hv)]
  rfl

/-- Both are given by position; or the body is first, as the destination has its name. -/
example (d : Text) (b : Node) : (Given "dest".toList [.str d, b] [] (.str d) [b] ∧ Given "body".toList [b] [] b []) ∧
    Given "dest".toList [b] [("dest".toList, .str d)] (.str d) [b] ∧ Given "body".toList [b] [("dest".toList, .str d)] b [] :=
  ⟨⟨.next (by simp), .next (by simp)⟩, .name (a := []) (by simp), .next (by simp)⟩

/-- **C113.** Keys, struck text and padding show what they are given. -/
theorem simple_calls (env : Env) (fuel : Nat) (src : Text) (pos rest : List Node) (named : List (Text × Node)) (w w' : Worker)
    (n : Node) (v : Value) (t : Text) (hv : eval env fuel n w = .ok (v, w')) :
    (Given "key".toList pos named (.str t) rest → eval env (fuel + 1) (.call src (.ident "kbd".toList) pos named) w =
      .ok (.content ("<kbd>".toList ++ t ++ "</kbd>".toList), w)) ∧
    (Given "body".toList pos named n rest → eval env (fuel + 1) (.call src (.ident "strike".toList) pos named) w =
      .ok (.content ("~~".toList ++ value v ++ "~~".toList), w')) ∧
    (Given "path".toList pos named n rest → v ≠ .none → eval env (fuel + 1) (.call src (.ident "pad".toList) pos named) w =
      .ok (v, w')) := by
  refine ⟨?_, ?_, ?_⟩
  · intro h
    apply eval_call
    have : library env.gfm (eval env fuel) "kbd".toList pos named = andThen (arg "key".toList pos named) fun (k, _) =>
      andThen (asStr k) fun key => ret (.content ("<kbd>".toList ++ key ++ "</kbd>".toList)) := rfl
    rw [this, andThen_ok (arg_given h w)]
    rfl
  · intro h
    apply eval_call
    have : library env.gfm (eval env fuel) "strike".toList pos named =
      andThen (contentArg (eval env fuel) "body".toList pos named) fun body =>
        ret (.content (['~', '~'] ++ body ++ ['~', '~'])) := rfl
    rw [this, andThen_ok (contentArg_given h hv)]
    rfl
  · intro h hne
    have : library env.gfm (eval env fuel) "pad".toList pos named = andThen (arg "path".toList pos named) fun (b, _) =>
      eval env fuel b := rfl
    have hl : library env.gfm (eval env fuel) "pad".toList pos named w = .ok (v, w') := by
      rw [this, andThen_ok (arg_given h w)]
      exact hv
    rw [eval, andThen_ok (show step env (eval env fuel) (.call src (.ident "pad".toList) pos named) w = .ok (v, w') from hl)]
    cases v with
    | none => exact absurd rfl hne
    | str s => rfl
    | content s => rfl
    | image p a => rfl

/-- **C113.** Of alternatives the second one is shown, without its parameters if it is a function; the first one is not looked at. -/
theorem alter_call (env : Env) (fuel : Nat) (src csrc : Text) (pos rest rest' : List Node) (named : List (Text × Node))
    (w w' : Worker) (l body : Node) (v : Value) (hl : Given "left".toList pos named l rest)
    (hr : Given "right".toList rest named (.closure csrc body) rest') (hv : eval env fuel body w = .ok (v, w')) :
    eval env (fuel + 1) (.call src (.ident "md-alter".toList) pos named) w = .ok (.content (value v), w') := by
  apply eval_call
  have : library env.gfm (eval env fuel) "md-alter".toList pos named =
    andThen (arg "left".toList pos named) fun (_, pos) => andThen (arg "right".toList pos named) fun (r, _) =>
      andThen (eval env fuel (match r with | .closure _ body => body | r => r)) fun v => ret (.content (value v)) := rfl
  rw [this, andThen_ok (arg_given hl w)]
  simp only
  rw [andThen_ok (arg_given hr w)]
  simp only
  rw [andThen_ok hv]
  rfl

/-- **C113.** An image shows its file and says what it shows; in a figure, with its caption. Other figures fail. -/
theorem image_call (env : Env) (fuel : Nat) (src path alt : Text) (c : Node) (cv : Value) (w w' : Worker)
    (hc : eval env (fuel + 1) c w = .ok (cv, w')) :
    eval env (fuel + 1) (.call src (.ident "image".toList) [.str path] [("alt".toList, .str alt)]) w =
      .ok (.image path alt, w) ∧
    (∀ isrc fsrc, eval env (fuel + 2) (.call fsrc (.ident "figure".toList)
      [.call isrc (.ident "image".toList) [.str path] [("alt".toList, .str alt)]] [("caption".toList, c)]) w =
      .ok (.content ("![".toList ++ value cv ++ ", ".toList ++ alt ++ "](".toList ++ path ++
        (if env.gfm then " \"".toList ++ value cv ++ "\"".toList else []) ++ ")".toList), w')) ∧
    (∀ fsrc t, eval env (fuel + 2) (.call fsrc (.ident "figure".toList) [.text t] []) w = .error .error) := by
  have hi : ∀ isrc, eval env (fuel + 1) (.call isrc (.ident "image".toList) [.str path] [("alt".toList, .str alt)]) w =
      .ok (.image path alt, w) := fun _ => rfl
  refine ⟨hi src, ?_, ?_⟩
  · intro isrc fsrc
    apply eval_call
    have : ∀ ev b c, library env.gfm ev "figure".toList [b] [("caption".toList, c)] = andThen (ev b) fun body =>
      andThen (ev c) fun caption =>
        match body with
        | .image path alt =>
          ret (.content (['!', '['] ++ value caption ++ [',', ' '] ++ alt ++ [']', '('] ++ path ++
            (if env.gfm then [' ', '"'] ++ value caption ++ ['"'] else []) ++ [')']))
        | _ => fail .error := fun _ _ _ => rfl
    rw [this, andThen_ok (hi isrc), andThen_ok hc]
    rfl
  · intro fsrc t
    rfl

/-- **C113.** A missing argument, a function that is not known and text where a string is needed end the conversion; a call of a
field or of a value gives nothing and is kept for rendering. -/
theorem call_errors (env : Env) (fuel : Nat) (src name : Text) (pos : List Node) (named : List (Text × Node)) (w : Worker) :
    (name ∉ ["link", "kbd", "md-alter", "image", "figure", "raw", "strike", "pad", "note-box", "tip-box", "important-box",
      "warning-box", "caution-box", "table", "grid"].map String.toList →
      eval env (fuel + 1) (.call src (.ident name) pos named) w = .error .error) ∧
    (∀ n ∈ ["link", "kbd", "md-alter", "image", "figure", "raw", "strike", "pad", "note-box", "tip-box", "important-box",
      "warning-box", "caution-box"].map String.toList, eval env (fuel + 1) (.call src (.ident n) [] []) w = .error .error) ∧
    (∀ t, eval env (fuel + 1) (.call src (.ident "kbd".toList) [.text t] []) w = .error .error) ∧
    (∀ c, (∀ n, c ≠ .ident n) → eval env (fuel + 1) (.call src c pos named) w =
      .ok (.none, { w with prepend := w.prepend ++ (src ++ ['\n']) })) := by
  refine ⟨?_, ?_, ?_, ?_⟩
  · intro h
    simp only [List.map_cons, List.map_nil, List.mem_cons, List.not_mem_nil, or_false, not_or] at h
    obtain ⟨h1, h2, h3, h4, h5, h6, h7, h8, h9, h10, h11, h12, h13, h14, h15⟩ := h
    rw [eval, andThen_error (e := .error)]
    rw [step, library, if_neg h1, if_neg h2, if_neg h3, if_neg h4, if_neg h5, if_neg h6, if_neg h7, if_neg h8, if_neg h9, if_neg h10,
      if_neg h11, if_neg h12, if_neg h13, if_neg (by rintro (h | h); exact h14 h; exact h15 h)]
    rfl
  · intro n hn
    simp only [List.map_cons, List.map_nil, List.mem_cons, List.not_mem_nil, or_false] at hn
    rcases hn with rfl | rfl | rfl | rfl | rfl | rfl | rfl | rfl | rfl | rfl | rfl | rfl | rfl <;> rfl
  · intro t
    rfl
  · intro c hc
    cases c with
    | ident n => exact absurd rfl (hc n)
    | field a b => rfl
    | other => rfl

/-! ## Boxes -/

/-- The text is empty or ends with a line break. -/
def Ended (t : Text) : Prop := t = [] ∨ t.getLast? = some '\n'

theorem strLines_lines (t : Text) (h : '\r' ∉ t) :
    (Ended t → IsLines t (strLines t ++ [[]])) ∧ (¬ Ended t → IsLines t (strLines t)) := by
  induction t with
  | nil => exact ⟨fun _ => isLines_single (by simp), fun h => absurd (Or.inl rfl) h⟩
  | cons c s ih =>
    simp only [List.mem_cons, not_or] at h
    obtain ⟨ih1, ih2⟩ := ih h.2
    by_cases hc : c = '\n'
    · subst hc
      have hs : strLines ('\n' :: s) = [] :: strLines s := by rw [strLines, if_pos rfl]
      rw [hs]
      have key : Ended ('\n' :: s) ↔ Ended s := by
        unfold Ended
        rw [List.getLast?_cons]
        cases s with
        | nil => simp
        | cons d s => simp [List.getLast?_cons]
      rw [key]
      exact ⟨fun he => isLines_cons (l := []) (by simp) (ih1 he), fun he => isLines_cons (l := []) (by simp) (ih2 he)⟩
    · have hr : ¬ (s.head? = some '\n' ∧ c = '\r') := fun e => h.1 e.2.symm
      have grow : ∀ ls : List Text, IsLines s ls → ∃ l r, ls = l :: r ∧ IsLines (c :: s) ((c :: l) :: r) := by
        intro ls hls
        obtain ⟨hne, hn, he⟩ := hls
        cases ls with
        | nil => exact absurd rfl hne
        | cons l r =>
          refine ⟨l, r, rfl, by simp, ?_, ?_⟩
          · intro x hx
            rcases List.mem_cons.mp hx with rfl | hx
            · simp only [List.mem_cons, not_or]
              exact ⟨fun e => hc e.symm, hn l (by simp)⟩
            · exact hn x (List.mem_cons_of_mem _ hx)
          · rw [he]
            cases r <;> simp [List.intercalate, List.intersperse]
      by_cases hs : s = []
      · subst hs
        have he : ¬ Ended [c] := by
          unfold Ended
          simp [hc]
        refine ⟨fun h => absurd h he, fun _ => ?_⟩
        have : strLines [c] = [[c]] := by rw [strLines, if_neg hc]; rfl
        rw [this]
        exact isLines_single (by simpa using fun e => hc e.symm)
      · have key : Ended (c :: s) ↔ Ended s := by
          unfold Ended
          cases s with
          | nil => exact absurd rfl hs
          | cons d s => simp [List.getLast?_cons]
        rw [key]
        have hne : strLines s ≠ [] := by
          cases s with
          | nil => exact absurd rfl hs
          | cons d s =>
            rw [strLines]
            split
            · simp
            · split
              · simp
              · split <;> simp
        have hcons : ∀ l r, strLines s = l :: r → strLines (c :: s) = (c :: l) :: r := by
          intro l r he
          rw [strLines, if_neg hc, he]
          simp only
          rw [if_neg hr]
        cases hl : strLines s with
        | nil => exact absurd hl hne
        | cons l r =>
          rw [hcons l r hl]
          rw [hl] at ih1 ih2
          refine ⟨fun he => ?_, fun he => ?_⟩
          · obtain ⟨l', r', e, hx⟩ := grow _ (ih1 he)
            simp only [List.cons_append, List.cons.injEq] at e
            rw [List.cons_append, e.1, e.2]
            exact hx
          · obtain ⟨l', r', e, hx⟩ := grow _ (ih2 he)
            simp only [List.cons.injEq] at e
            rw [e.1, e.2]
            exact hx

/-- **C113.** A box is a quotation that begins with its kind; its further lines are the lines of the body, up to an empty last
one. -/
theorem box_call (env : Env) (fuel : Nat) (src : Text) (pos rest : List Node) (named : List (Text × Node)) (w w' : Worker)
    (body : Node) (v : Value) (hb : Given "body".toList pos named body rest) (hv : eval env fuel body w = .ok (v, w'))
    (hr : '\r' ∉ value v) (name title : Text)
    (hn : (name, title) ∈ [("note-box", "NOTE"), ("tip-box", "TIP"), ("important-box", "IMPORTANT"), ("warning-box", "WARNING"),
      ("caution-box", "CAUTION")].map fun p => (p.1.toList, p.2.toList)) :
    ∃ out ls, eval env (fuel + 1) (.call src (.ident name) pos named) w = .ok (.content out, w') ∧
      Quotes out ((['[', '!'] ++ title ++ [']']) :: ls) ∧ (IsLines (value v) ls ∨ IsLines (value v) (ls ++ [[]])) := by
  have hlib : library env.gfm (eval env fuel) name pos named =
      andThen (contentArg (eval env fuel) "body".toList pos named) fun body => ret (.content (noteBox title body)) := by
    simp only [List.map_cons, List.map_nil, List.mem_cons, List.not_mem_nil, or_false, Prod.mk.injEq] at hn
    rcases hn with ⟨rfl, rfl⟩ | ⟨rfl, rfl⟩ | ⟨rfl, rfl⟩ | ⟨rfl, rfl⟩ | ⟨rfl, rfl⟩ <;> rfl
  refine ⟨noteBox title (value v), strLines (value v), ?_, ?_, ?_⟩
  · apply eval_call
    rw [hlib, andThen_ok (contentArg_given hb hv)]
    rfl
  · rw [Quotes, noteBox, List.flatMap_cons]
    simp
  · obtain ⟨h1, h2⟩ := strLines_lines (value v) hr
    rcases Classical.em (Ended (value v)) with h | h
    · exact Or.inr (h1 h)
    · exact Or.inl (h2 h)

end Tinymist.Typlite
