import Verif.Model.Pages

/-!
# Documentation of definitions and modules

Models which comments document what (`crates/tinymist-analysis/src/syntax/comment.rs` 6-206,
`crates/tinymist-query/src/syntax/expr.rs` 1002-1023), how parameters are read from documentation that was converted to
Markdown (`crates/tinymist-analysis/src/docs/tidy.rs` 26-165), and what is shown for documentation that could not be
converted (`crates/tinymist-query/src/syntax/docs.rs` 104-133).
-/

namespace Tinymist.Docs

open Pages (isWhitespace trim)

abbrev Text := List Char

/-! ## Comments -/

/-- A child of a syntax node. `expr`: what is an expression, which a paragraph break is too; `collects`: whether it is a
definition, which takes the comments collected (`expr.rs` 390-420). `space`: the number of line breaks in it. `other`: any
other node that is no expression. -/
inductive Child where
  | expr (collects : Bool)
  | hash
  | space (newlines : Nat)
  | line (text : Text)
  | block (text : Text)
  | other
deriving DecidableEq, Repr

/-- `RawComment` (`comment.rs` 122-125). -/
inductive Comment where
  | line (text : Text)
  | block (text : Text)
deriving DecidableEq, Repr

/-- `DocCommentMatcher` with its `CommentGroupMatcher` (`comment.rs` 67-69, 128-133). -/
structure Matcher where
  comments : List Comment
  newlines : Nat
deriving DecidableEq, Repr

/-- `"///"`. -/
def docPrefix : Text := ['/', '/', '/']

/-- `DocCommentMatcher::process` (`comment.rs` 144-164) and `CommentGroupMatcher::process` (84-120). The second: whether the
group is broken. -/
def process (strict : Bool) (m : Matcher) : Child → Matcher × Bool
  | .hash => ({ m with newlines := 0 }, false)
  | .space n =>
    let c := if n ≠ 0 then m.newlines + 1 else m.newlines
    ({ m with newlines := c }, decide (c > 1))
  | .line t =>
    (⟨if !strict || docPrefix.isPrefixOf t then m.comments ++ [.line t] else m.comments, 0⟩, false)
  | .block t => (⟨if !strict then m.comments ++ [.block t] else m.comments, 0⟩, false)
  | _ => ({ m with newlines := 0 }, true)

/-- `strip_prefix`. -/
def stripPrefix : Text → Text → Option Text
  | [], s => some s
  | _ :: _, [] => none
  | p :: ps, c :: cs => if p = c then stripPrefix ps cs else none

/-- `strip_suffix`. -/
def stripSuffix (p s : Text) : Option Text := (stripPrefix p.reverse s.reverse).map List.reverse

/-- What a comment says (`comment.rs` 173-193). -/
def content : Comment → Text
  | .line t => t.dropWhile (· == '/')
  | .block t =>
    match (stripPrefix ['/', '*'] t).bind (stripSuffix ['*', '/']) with
    | none => t
    | some s =>
      match trim s with
      | '*' :: r => trim r
      | r => r

/-- The number of white spaces a text begins with (`comment.rs` 197). -/
def indent (s : Text) : Nat := (s.takeWhile isWhitespace).length

/-- `fold(usize::MAX, min)` (`comment.rs` 196-199). `none`: `usize::MAX`. -/
def dedent : List Text → Option Nat
  | [] => none
  | s :: ss =>
    match dedent ss with
    | none => some (indent s)
    | some d => some (min (indent s) d)

/-- `try_fold` (`comment.rs` 206-213): a line break is put unless nothing was written. -/
def joinLines (acc : Text) : List Text → Text
  | [] => acc
  | s :: ss => joinLines ((if acc.isEmpty then acc else acc ++ ['\n']) ++ s) ss

/-- `collect` (`comment.rs` 167-217). -/
def collect (cs : List Comment) : Option Text :=
  if cs.isEmpty then none
  else some (joinLines [] ((cs.map content).map fun s => s.drop ((dedent (cs.map content)).getD 0)))

def fresh : Matcher := ⟨[], 0⟩

/-- `check_in_mode` (`expr.rs` 1002-1023): the documentation each expression gets. Definitions inside of an expression are
left out. -/
def docsOf (m : Matcher) : List Child → List (Option Text)
  | [] => []
  | .expr collects :: cs => (if collects then collect m.comments else none) :: docsOf fresh cs
  | c :: cs => if (process false m c).2 then docsOf fresh cs else docsOf (process false m c).1 cs

/-- `find_module_level_docs` (`comment.rs` 6-49): the comments up to the first expression or where the group is broken. -/
def moduleComments (m : Matcher) : List Child → List Comment
  | [] => m.comments
  | .expr _ :: _ => m.comments
  | c :: cs => if (process true m c).2 then (process true m c).1.comments else moduleComments (process true m c).1 cs

def moduleDocs (cs : List Child) : Option Text := collect (moduleComments fresh cs)

/-! ## Parameters -/

/-- `TidyParamDocs` (`tidy.rs` 7-12). The documentation by lines. -/
structure Param where
  name : Text
  types : Text
  docs : List Text
deriving DecidableEq, Repr

/-- `TidyPatDocs` (`tidy.rs` 15-19). `docs`: the lines, `none` for the whole text. -/
structure PatDocs where
  docs : Option (List Text)
  returnTy : Option Text
  params : List Param
deriving DecidableEq, Repr

def trimStart (s : Text) : Text := s.dropWhile isWhitespace
def trimEnd (s : Text) : Text := (s.reverse.dropWhile isWhitespace).reverse

def endMark : Text := "<!-- typlite:end:list-item 0 -->".toList
def beginMark : Text := "<!-- typlite:begin:list-item 0 -->".toList

/-- Whether a line begins an item, and what follows (`tidy.rs` 70-74). -/
def beginItem (line : Text) : Option Text :=
  (stripPrefix ['-', ' '] (trimStart line)).bind fun t => stripPrefix beginMark (trim t)

/-- Go up to the line that begins the item (`tidy.rs` 68-93); the lines above are given from below. -/
def gather (line : Text) : List Text → Option (List Text × List Text)
  | [] => (beginItem line).map fun t => ([t], [])
  | p :: rest =>
    match beginItem line with
    | some t => some ([t], p :: rest)
    | none => (gather p rest).map fun (buf, r) => (buf ++ [line], r)

/-- `match_brace` (`tidy.rs` 144-165): what is before the brace that closes and the rest from it on. -/
def matchBrace (depth : Nat) : Text → Option (Text × Text)
  | [] => none
  | c :: s =>
    let d := if c = '(' then depth + 1 else if c = ')' then depth - 1 else depth
    if d = 0 then some ([], c :: s) else (matchBrace d s).map fun (a, b) => (c :: a, b)

/-- `split_once` at a character. -/
def splitOnce (x : Char) : Text → Option (Text × Text)
  | [] => none
  | c :: s => if c = x then some ([], s) else (splitOnce x s).map fun (a, b) => (c :: a, b)

/-- The first line of an item (`tidy.rs` 98-114): name, types and what follows. -/
def firstLine (line : Text) : Option (Text × Text × Text) :=
  (splitOnce ' ' (trim line)).bind fun (name, rest) =>
    (stripPrefix ['('] (trimStart rest)).bind fun rest =>
      (matchBrace 1 rest).bind fun (types, rest) =>
        (splitOnce ':' rest).map fun (_, rest) => (name, types, trim rest)

/-- The loop `'search` (`tidy.rs` 36-129), over the lines from below. `breakLine`: the number of lines above. -/
def search (fuel : Nat) (matching : Bool) (breakLine : Option Nat) (ret : Option Text) (params : List Param) :
    List Text → Option Nat × Option Text × List Param
  | [] => (breakLine, ret, params)
  | line :: rest =>
    match fuel with
    | 0 => (breakLine, ret, params)
    | fuel + 1 =>
      if line.isEmpty then search fuel matching breakLine ret params rest
      else
        match (if matching then stripPrefix ['-', '>'] (trimStart line) else none) with
        | some w => search fuel false (some rest.length) (some (trim w)) params rest
        | none =>
          match stripSuffix endMark (trimEnd line) with
          | none => (some (rest.length + 1), ret, params)
          | some l =>
            match gather l rest with
            | none => (some (rest.length + 1), ret, params)
            | some ([], _) => (some (rest.length + 1), ret, params)
            | some (first :: more, above) =>
              match firstLine first with
              | none => (some (rest.length + 1), ret, params)
              | some (name, types, doc) => search fuel false breakLine ret (⟨name, types, doc :: more⟩ :: params) above

/-- `identify_pat_docs` (`tidy.rs` 26-140) over the lines of a text. Each turn of the loop takes a line at least, so as
many turns as lines are enough. -/
def identify (lines : List Text) : PatDocs :=
  let r := search lines.length true none none [] lines.reverse
  ⟨r.1.map fun n => lines.take n, r.2.1, r.2.2⟩

/-! ## Documentation that could not be converted -/

/-- The longest run of backticks (`docs.rs` 109-118). -/
def longestRun (s : Text) : Nat :=
  (s.foldl (fun (acc : Nat × Nat) c => if c = '`' then (max acc.1 (acc.2 + 1), acc.2 + 1) else (acc.1, 0)) (0, 0)).1

/-- `err.replace("`", "\\`")` (`docs.rs` 108). -/
def escape : Text → Text
  | [] => []
  | c :: s => if c = '`' then '\\' :: '`' :: escape s else c :: escape s

/-- The fence around the documentation (`docs.rs` 119). -/
def fence (docs : Text) : Text := List.replicate (max (longestRun docs + 1) 3) '`'

/-- `fallback_docs` (`docs.rs` 104-133). -/
def fallback (err docs : Text) : Text :=
  "```\nfailed to parse docs: ".toList ++ escape err ++ "\n```\n\n".toList ++ fence docs ++ "typ\n".toList ++ docs ++
    ['\n'] ++ fence docs ++ ['\n']

end Tinymist.Docs
