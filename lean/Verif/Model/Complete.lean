import Verif.Model.Position
import Verif.Model.RustNum
import Verif.Model.Docs
/-!
# Completion

Models what `crates/tinymist-query/src/analysis/completion.rs` and the files next to it make of the candidates of a
completion request: the edits, the snippets, the order and the filter. How candidates are found (types, scopes, the
compiled document) is not modelled: candidates are parameters. Texts are lists of characters, offsets are counted in
bytes. The conversion of offsets to editor positions is `Position.toLsp`.
-/
namespace Tinymist.Complete
open Position (len8 splitAtByte)
open RustNum (print)

abbrev Text := List Char

/-! ## Snippets -/

/-- What `(.*?)\}` matches: the text up to the first `}`, which must be on the same line; and the rest. -/
def closing : Text → Option (Text × Text)
  | [] => none
  | c :: rest =>
    if c = '}' then some ([], rest)
    else if c = '\n' then none
    else (closing rest).map fun p => (c :: p.1, p.2)

theorem closing_length {s b r : Text} (h : closing s = some (b, r)) : r.length < s.length := by
  induction s generalizing b with
  | nil => simp [closing] at h
  | cons c rest ih =>
    rw [closing] at h
    split at h
    · simp at h; simp [h.2]
    · split at h
      · simp at h
      · simp only [Option.map_eq_some_iff] at h
        obtain ⟨p, hp, he⟩ := h
        have := ih (b := p.1) (by rw [hp, ← (Prod.mk.inj he).2])
        simp; omega

/-- What the regular expression `\$\{(.*?)\}` matches at the beginning of a text: the text between the braces and the
rest (`analysis/completion.rs` 910-911). -/
def hole : Text → Option (Text × Text)
  | '$' :: '{' :: rest => closing rest
  | _ => none

theorem hole_length {s b r : Text} (h : hole s = some (b, r)) : r.length < s.length := by
  unfold hole at h
  split at h
  · have := closing_length h; simp; omega
  · simp at h

/-- `to_lsp_snippet` with the counter at `n` (`analysis/completion.rs` 914-923): holes get numbers. -/
def number (n : Nat) (s : Text) : Text :=
  match h : hole s with
  | some (b, rest) => ['$', '{'] ++ print 10 n ++ [':'] ++ b ++ ['}'] ++ number (n + 1) rest
  | none =>
    match s with
    | [] => []
    | c :: rest => c :: number n rest
termination_by s.length
decreasing_by
  · exact hole_length h
  · simp

/-- `to_lsp_snippet` (`analysis/completion.rs` 914-923). -/
def toLspSnippet (s : Text) : Text := number 1 s

/-- The holes `find_iter` finds with their places: the text between the braces, what is before the hole (since the
beginning) and what is after it. -/
def holes (seen : Text) (s : Text) : List (Text × Text × Text) :=
  match h : hole s with
  | some (b, rest) => (b, seen, rest) :: holes (seen ++ s.take (s.length - rest.length)) rest
  | none =>
    match s with
    | [] => []
    | c :: rest => holes (seen ++ [c]) rest
termination_by s.length
decreasing_by
  · exact hole_length h
  · simp

/-- The built-in snippets, by label (`completion/snippet.rs` 266-534). -/
def defaultPrefix : List (String × String) :=
  [("function call", "${function}(${arguments})[${body}]"),
   ("code block", "{ ${} }"),
   ("content block", "[${content}]"),
   ("set rule", "set ${}"),
   ("show rule", "show ${}"),
   ("show rule (everything)", "show: ${}"),
   ("context expression", "context ${}"),
   ("let binding", "let ${name} = ${value}"),
   ("let binding (function)", "let ${name}(${params}) = ${output}"),
   ("if conditional", "if ${1 < 2} {\n\t${}\n}"),
   ("if-else conditional", "if ${1 < 2} {\n\t${}\n} else {\n\t${}\n}"),
   ("while loop", "while ${1 < 2} {\n\t${}\n}"),
   ("for loop", "for ${value} in ${(1, 2, 3)} {\n\t${}\n}"),
   ("for loop (with key)", "for (${key}, ${value}) in ${(a: 1, b: 2)} {\n\t${}\n}"),
   ("break", "break"),
   ("continue", "continue"),
   ("return", "return ${output}"),
   ("array literal", "(${1, 2, 3})"),
   ("dictionary literal", "(${a: 1, b: 2})"),
   ("subscript", "${x}_${2:2}"),
   ("superscript", "${x}^${2:2}"),
   ("fraction", "${x}/${y}"),
   ("expression", "#${}"),
   ("linebreak", "\\\n${}"),
   ("strong text", "*${strong}*"),
   ("emphasized text", "_${emphasized}_"),
   ("raw text", "`${text}`"),
   ("code listing", "```${lang}\n${code}\n```"),
   ("hyperlink", "https://${example.com}"),
   ("label", "<${name}>"),
   ("reference", "@${name}"),
   ("heading", "= ${title}"),
   ("list item", "- ${item}"),
   ("enumeration item", "+ ${item}"),
   ("enumeration item (numbered)", "${number}. ${item}"),
   ("term list item", "/ ${term}: ${description}"),
   ("math (inline)", "$${x}$"),
   ("math (block)", "$ ${sum_x^2} $"),
   ("import module", "import \"${}\""),
   ("import module by expression", "import ${}"),
   ("import (package)", "import \"@${}\""),
   ("include (file)", "include \"${}\""),
   ("include (package)", "include \"@${}\"")]

/-- The built-in postfix snippets, by label (`completion/snippet.rs` 536-638). -/
def defaultPostfix : List (String × String) :=
  [("text fill", "text(fill: ${}, ${node})"),
   ("text size", "text(size: ${}, ${node})"),
   ("align", "align(${}, ${node})"),
   ("if", "if ${node} { ${} }"),
   ("else", "if not ${node} { ${} }"),
   ("none", "if ${node} == none { ${} }"),
   ("notnone", "if ${node} != none { ${} }"),
   ("return", "return ${node}"),
   ("tup", "(${node}, ${})"),
   ("let", "let ${_} = ${node}"),
   ("in", "${_} in ${node}")]

/-- The lines about the parameters and the result in the snippet of "Document function" (`mode.rs` 27-52). -/
def docParams (i : Nat) : List Text → Text
  | [] => ['\n', '/', '/', '/', ' ', '-', '>', ' '] ++ ('$' :: print 10 (i + 1))
  | p :: ps =>
    ['\n', '/', '/', '/', ' ', '-', ' '] ++ p ++ [' ', '('] ++ ('$' :: print 10 (i + 1)) ++ [')', ':', ' '] ++ ('$' :: print 10 (i + 2)) ++
      docParams (i + 2) ps

/-- The snippet of "Document function" in a comment that is `///`, with a space after it or not (`mode.rs` 22-52). -/
def docSnippet (space : Bool) (params : List Text) : Text :=
  (if space then [] else [' ']) ++ ['$', '0', '\n', '/', '/', '/'] ++ docParams 0 params

/-! ## Edits -/

/-- An edit of the text (`EcoTextEdit`), with byte offsets. -/
structure Edit where
  start : Nat
  stop : Nat
  new : Text
deriving DecidableEq, Repr

/-- What `SyntaxClass` says about the node at the cursor, as far as completion looks at it. -/
inductive Syn where
  | callee
  | varAccess
  | label
  | ref
  | other
deriving DecidableEq, Repr

/-- `CompletionCursor` (`analysis/completion.rs` 152-182). `leaf` is the text of the leaf at `offset`; `argLike` is
`is_arg_like_context` of it. -/
structure Cursor where
  text : Text
  frm : Nat
  cursor : Nat
  offset : Nat
  leaf : Text
  syn : Syn
  identLike : Bool
  argLike : Bool
deriving DecidableEq, Repr

/-- `SelectedNode` (`analysis/completion.rs` 378-385). -/
inductive Selected where
  | ident
  | label
  | ref
deriving DecidableEq, Repr

/-- `selected_node` (`analysis/completion.rs` 235-266). -/
def selected (c : Cursor) : Option Selected :=
  if (c.syn = .callee ∨ c.syn = .varAccess) ∧ c.identLike ∧ c.offset = c.frm then some .ident
  else if c.syn = .label ∧ c.offset + 1 = c.frm then some .label
  else if c.syn = .ref ∧ c.offset + 1 = c.frm then some .ref
  else none

/-- `snippet.trim_end().ends_with(',')`. -/
def endsWithComma (s : Text) : Bool := (Docs.trimEnd s).getLast? == some ','

/-- The main edit of `lsp_item_of` (`analysis/completion.rs` 314-358) for the text to insert. -/
def mainEdit (c : Cursor) (apply : Text) : Edit :=
  let stop := c.offset + len8 c.leaf
  match selected c with
  | some .ident =>
    if c.syn ≠ .callee ∧ c.cursor ≠ stop ∧ c.argLike then
      ⟨c.offset, c.cursor, if endsWithComma apply then apply else apply ++ [',', ' ']⟩
    else ⟨c.offset, stop, apply⟩
  | some .label =>
    ⟨if c.leaf.head? = some '<' ∧ apply.head? ≠ some '<' then c.offset + 1 else c.offset,
      if c.leaf.getLast? = some '>' ∧ apply.getLast? ≠ some '>' then stop - 1 else stop, apply⟩
  | some .ref =>
    ⟨if c.leaf.head? = some '@' ∧ apply.head? ≠ some '@' then c.offset + 1 else c.offset, stop, apply⟩
  | none => ⟨c.frm, c.cursor, apply⟩

/-- The text in front of an offset; slicing elsewhere than between characters panics. -/
def headAt (s : Text) (n : Nat) : Option Text := (splitAtByte s n).map (·.1)

/-- The text behind an offset. -/
def tailAt (s : Text) (n : Nat) : Option Text := (splitAtByte s n).map (·.2)

/-- The text `label_completions_` inserts for a label (`typst_specific.rs` 99-103 and 127-132). -/
def labelApply (c : Cursor) (label : Text) : Option Text := do
  let head ← headAt c.text c.frm
  let after ← tailAt c.text c.cursor
  let at_ := head.getLast? == some '@'
  let opens := !at_ && !(head.getLast? == some '<')
  let closes := !at_ && !(after.head? == some '>')
  pure ((if opens then ['<'] else []) ++ label ++ (if closes then ['>'] else []))

/-- `strip_suffix('"')`, or nothing changed. -/
def stripQuoteEnd (s : Text) : Text := if s.getLast? = some '"' then s.dropLast else s

/-- `strip_prefix('"')`, or nothing changed. -/
def stripQuoteStart (s : Text) : Text := if s.head? = some '"' then s.tail else s

/-- The text `value_completion_` inserts for a value other than a function that is shown as `label`
(`typst_specific.rs` 197-241); `field` tells whether it is a named field, `ident` whether `is_ident` holds of it. -/
def valueApply (c : Cursor) (field ident : Bool) (label : Text) : Option Text :=
  if field ∧ ¬ ident then some ("at(\"".toList ++ label ++ "\")".toList)
  else do
    let after ← tailAt c.text c.cursor
    let before ← headAt c.text c.frm
    let l := if after.head? = some '"' then stripQuoteEnd label else label
    pure (if before.getLast? = some '"' then stripQuoteStart l else l)

/-! ## The list -/

/-- `CompletionItem`, as far as it matters here. -/
structure Item where
  label : Text
  sort : Option Text
  edit : Edit
  extra : List Edit
deriving DecidableEq, Repr

/-- `Option::cmp` and then the label (`analysis/completion.rs` 785-796): not greater. -/
def itemLe (a b : Item) : Bool :=
  match a.sort, b.sort with
  | none, some _ => true
  | some _, none => false
  | none, none => decide (a.label ≤ b.label)
  | some x, some y => decide (x < y) || (decide (x = y) && decide (a.label ≤ b.label))

/-- `{n:0>w}` and `{n:0w}`: the number with zeros in front. -/
def pad (w n : Nat) : Text := List.replicate (w - (print 10 n).length) '0' ++ print 10 n

/-- The loop that replaces the sort texts (`analysis/completion.rs` 798-804). -/
def numberItems (items : List Item) : List Item :=
  items.mapIdx fun i it => { it with sort := some (pad 3 i) }

/-- `enrich` (`analysis/completion.rs` 451-460). -/
def enrich (front back : Text) (items : List Item) : List Item :=
  items.map fun it => { it with edit := { it.edit with new := front ++ it.edit.new ++ back } }

/-- The end of `complete_cursor` (`analysis/completion.rs` 785-838). `typed`: the completions by type, `others`: those by
mode. -/
def arrange (typed others : List Item) (unclosed afterSep selector : Bool) : List Item :=
  let ts := typed.mergeSort itemLe
  let os := others.mergeSort itemLe
  let all := numberItems (ts ++ os)
  let items := all.drop ts.length ++ all.take ts.length
  let items := if unclosed then enrich [] [')'] items else items
  let items := if afterSep then enrich [' '] [] items else items
  if selector then enrich [] ": ${}".toList items else items

/-- Whether the characters of the identifier occur in the label in this order (`analysis/completion.rs` 529-542). -/
def matchLabel : Text → Text → Bool
  | [], _ => true
  | _ :: _, [] => false
  | c :: cs, l :: ls => if l = c then matchLabel cs ls else matchLabel (c :: cs) ls

/-- The filter by what is typed of the selected identifier (`analysis/completion.rs` 524-544). -/
def keep : Option Text → List Item → List Item
  | some t, items => items.filter fun it => matchLabel t it.label
  | none, items => items

/-- The end of `work` (`analysis/completion.rs` 524-555): the filter and the snippets' numbers. -/
def finish (typed : Option Text) (items : List Item) : List Item :=
  (keep typed items).map fun it => { it with edit := { it.edit with new := toLspSnippet it.edit.new } }

/-! ## Slices -/

/-- `str::is_char_boundary`. -/
def isBoundary (s : Text) (n : Nat) : Bool := (splitAtByte s n).isSome

/-- The first loop of `slice_at` (`analysis/completion.rs` 896-898); the first argument is the length of the range. -/
def moveUp (s : Text) : Nat → Nat → Nat
  | 0, start => start
  | gap + 1, start => if isBoundary s start then start else moveUp s gap (start + 1)

/-- The second loop of `slice_at` (`analysis/completion.rs` 899-901). -/
def moveDown (s : Text) : Nat → Nat → Nat
  | 0, stop => stop
  | gap + 1, stop => if isBoundary s stop then stop else moveDown s gap (stop - 1)

/-- `slice_at` (`analysis/completion.rs` 895-908); `none`: the slice panics. -/
def sliceAt (s : Text) (start stop : Nat) : Option Text :=
  let start := moveUp s (stop - start) start
  let stop := moveDown s (stop - start) stop
  if stop ≤ start then some []
  else (headAt s stop).bind fun h => tailAt h start

/-- `before_window` (`analysis/completion.rs` 217-222). -/
def beforeWindow (before : Text) (size : Nat) : Option Text := sliceAt before (len8 before - size) (len8 before)

end Tinymist.Complete
