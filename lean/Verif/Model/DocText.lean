/-!
# The text of documentation as it is shown

Models `plain_docs_sentence`, `resolve`, `split_link` and `resolve_known` of
`crates/tinymist-analysis/src/upstream/mod.rs`. Texts are lists of characters.

`resolve_definition` (mod.rs:186-247), which looks into the library, is the parameter `definition`: it gives the route for
a name, or nothing.
-/

namespace Tinymist.DocText

/-- `str::replace`, as used in mod.rs:26. -/
def replaceAll (pat rep : List Char) : List Char → List Char
  | [] => []
  | c :: rest =>
    if pat ≠ [] ∧ pat.isPrefixOf (c :: rest) then rep ++ replaceAll pat rep ((c :: rest).drop pat.length)
    else c :: replaceAll pat rep rest
termination_by l => l.length
decreasing_by
  · rename_i h
    simp only [List.length_drop, List.length_cons]
    have : 0 < pat.length := List.length_pos_iff.mpr h.1
    omega
  · simp

/-- The braces or brackets around a piece of code are taken off (mod.rs:34-38). -/
def strip (raw : List Char) : List Char :=
  if (raw.head? = some '{' ∧ raw.getLast? = some '}') ∨ (raw.head? = some '[' ∧ raw.getLast? = some ']') then raw.tail.dropLast
  else raw

/-- `scanner.eat_until(stop)`: what is before the mark. -/
def before (stop : Char) (l : List Char) : List Char := l.takeWhile (· ≠ stop)

/-- What is left after `eat_until(stop)` and `eat()`. -/
def after (stop : Char) (l : List Char) : List Char := (l.dropWhile (· ≠ stop)).drop 1

theorem after_length (stop : Char) (l : List Char) : (after stop l).length ≤ l.length := by
  rw [after, List.length_drop]
  have := (List.dropWhile_suffix (fun c : Char => decide (c ≠ stop)) (l := l)).length_le
  omega

/-- The loop of `plain_docs_sentence` (mod.rs:29-81). `link` says that a bracket is open. -/
def loop (resolve : List Char → List Char) (link : Bool) : List Char → List Char
  | [] => []
  | c :: rest =>
    if c = '`' then
      '`' :: strip (before '`' rest) ++ '`' :: loop resolve link (after '`' rest)
    else if c = '[' then '[' :: loop resolve true rest
    else if c = ']' ∧ link then
      if rest.head? = some '(' then
        ']' :: '(' :: resolve (before ')' rest.tail) ++ ')' :: loop resolve false (after ')' rest.tail)
      else if rest.head? = some '[' then
        ']' :: '[' :: before ']' rest.tail ++ (if ']' ∈ rest.tail then [']'] else []) ++
          loop resolve false (after ']' rest.tail)
      else ']' :: loop resolve false rest
    else c :: loop resolve link rest
termination_by l => l.length
decreasing_by
  all_goals simp only [List.length_cons]
  · have := after_length '`' rest
    omega
  · omega
  · have := after_length ')' rest.tail
    simp only [List.length_tail] at this
    omega
  · have := after_length ']' rest.tail
    simp only [List.length_tail] at this
    omega
  · omega
  · omega

/-- `resolve_known` (mod.rs:157-172). -/
def resolveKnown (base head : List Char) : Option (List Char) :=
  if head = "$tutorial".toList then some (base ++ "tutorial".toList)
  else if head = "$reference".toList then some (base ++ "reference".toList)
  else if head = "$category".toList then some (base ++ "reference".toList)
  else if head = "$syntax".toList then some (base ++ "reference/syntax".toList)
  else if head = "$styling".toList then some (base ++ "reference/styling".toList)
  else if head = "$scripting".toList then some (base ++ "reference/scripting".toList)
  else if head = "$context".toList then some (base ++ "reference/context".toList)
  else if head = "$guides".toList then some (base ++ "guides".toList)
  else if head = "$changelog".toList then some (base ++ "changelog".toList)
  else if head = "$community".toList then some (base ++ "community".toList)
  else if head = "$universe".toList then some "https://typst.app/universe".toList
  else none

/-- `split_link` (mod.rs:150-154): the link before its first slash, and what is behind the slashes. -/
def splitLink (link : List Char) : List Char × List Char :=
  (link.takeWhile (· ≠ '/'), (link.dropWhile (· ≠ '/')).dropWhile (· = '/'))

/-- The end of `resolve` (mod.rs:137-147). -/
def finish (route tail : List Char) : List Char :=
  let route := if tail = [] then route else route ++ '/' :: tail
  if '#' ∉ route ∧ '?' ∉ route ∧ route.getLast? ≠ some '/' then route ++ ['/'] else route

/-- `resolve` (mod.rs:126-147). -/
def resolve (definition : List Char → Option (List Char)) (base link : List Char) : Option (List Char) :=
  if link.head? = some '#' ∨ "http".toList.isPrefixOf link then some link
  else
    let (head, tail) := splitLink link
    match resolveKnown base head with
    | some route => some (finish route tail)
    | none => (definition head).map (finish · tail)

/-- A link that is not resolved leads to the page for missing pages (mod.rs:57-61). -/
def resolveOr404 (definition : List Char → Option (List Char)) (link : List Char) : List Char :=
  (resolve definition "https://typst.app/docs/".toList link).getD "https://typst.app/docs/404.html".toList

/-- `plain_docs_sentence` (mod.rs:24-84). -/
def plain (definition : List Char → Option (List Char)) (docs : List Char) : List Char :=
  loop (resolveOr404 definition) false (replaceAll "```example".toList "```typ".toList docs)

end Tinymist.DocText
