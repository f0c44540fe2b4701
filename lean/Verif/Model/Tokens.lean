import Verif.Model.Position
/-!
# Semantic tokens

Models the `Tokenizer` of `crates/tinymist-query/src/analysis/semantic_tokens.rs:308-536`. Token types and modifiers
(`token_from_node`, `modifiers_from_node`) only travel along; a node carries the result as a `Tag`. Line and offset
conversions are those of `Model/Position.lean`. `none` stands for a panic; in builds without overflow checks the
subtractions would wrap instead.
-/
namespace Tinymist.Tokens
open Tinymist.Position

/-- Token type and modifier bits. -/
structure Tag where
  ty : Nat
  mods : Nat
  deriving DecidableEq, Repr

/-- `typst::syntax::LinkedNode` over a syntax tree: the text of a node is that of its leaves, and its range follows
from it. A leaf always has a token (semantic_tokens.rs:346-348: `Text` by default), an inner node may have one. (An inner
node without children counts as a leaf for the tokenizer; its range is empty and neither pushes anything.) -/
inductive Node where
  | leaf (text : Text) (tag : Tag)
  | inner (tag : Option Tag) (children : List Node)

mutual
def Node.text : Node → Text
  | .leaf t _ => t
  | .inner _ cs => forestText cs
def forestText : List Node → Text
  | [] => []
  | n :: ns => n.text ++ forestText ns
end

/-- `lsp_types::SemanticToken`. -/
structure Sem where
  deltaLine : Nat
  deltaStart : Nat
  length : Nat
  tag : Tag
  deriving DecidableEq, Repr

/-- `Token`, semantic_tokens.rs:519-535. -/
structure Token where
  tag : Tag
  start : Nat
  stop : Nat

/-- The mutable part of `Tokenizer`, semantic_tokens.rs:308-319. -/
structure St where
  curr : Nat × Nat
  posOffset : Nat
  output : List Sem
  token : Option Token

/-- `Tokenizer::new`, semantic_tokens.rs:322-338. -/
def St.new : St := ⟨(0, 0), 0, [], none⟩

/-- The constant part of `Tokenizer`. -/
structure Cfg where
  source : Text
  encoding : Encoding
  allowMultiline : Bool

/-- Checked subtraction. -/
def sub (a b : Nat) : Option Nat := if b ≤ a then some (a - b) else none

/-- `encode_length`, semantic_tokens.rs:413-423. -/
def encodeLength (cfg : Cfg) (s t : Nat) : Option Nat :=
  match cfg.encoding with
  | .utf8 => sub t s
  | .utf16 => do
    let a ← byteToUtf16 (lines cfg.source) s
    let b ← byteToUtf16 (lines cfg.source) t
    sub b a

/-- `PositionExt::delta`, semantic_tokens.rs:497-509. -/
def delta (a b : Nat × Nat) : Option (Nat × Nat) := do
  let dl ← sub b.1 a.1
  let dc ← if dl = 0 then sub b.2 a.2 else some b.2
  pure (dl, dc)

/-- `line_to_byte(..).unwrap_or(source_len)`. -/
def lineStart (cfg : Cfg) (i : Nat) : Nat := (lineToByte (lines cfg.source) i).getD (len8 cfg.source)

/-- The loop over the lines after the first, semantic_tokens.rs:459-484: `n` lines from `line` on; returns the state
and `delta_line`. -/
def lineLoop (cfg : Cfg) (tag : Tag) (finalLine stop : Nat) : Nat → Nat → Nat → Nat → St → Option (St × Nat)
  | 0, _, _, dl, st => some (st, dl)
  | n + 1, line, cursor, dl, st => do
    let next := if line = finalLine then stop else lineStart cfg (line + 1)
    if cursor < next then
      let len ← encodeLength cfg cursor next
      let st' : St := ⟨(st.curr.1, 0), cursor, st.output ++ [⟨dl + 1, 0, len, tag⟩], st.token⟩
      lineLoop cfg tag finalLine stop n (line + 1) next 0 st'
    else
      let st' : St := ⟨st.curr, cursor, st.output, st.token⟩
      lineLoop cfg tag finalLine stop n (line + 1) next (dl + 1) st'

/-- `Tokenizer::push`, semantic_tokens.rs:385-485. -/
def push (cfg : Cfg) (t : Token) (st : St) : Option St :=
  if st.posOffset > t.start then some st
  else
    let len := len8 cfg.source
    let stop := min t.stop len
    let st : St := ⟨st.curr, t.start, st.output, st.token⟩
    if stop ≤ t.start ∨ t.start > len then some st
    else do
      let position ← toLsp cfg.encoding cfg.source t.start
      let d ← delta st.curr position
      if cfg.allowMultiline then
        let l ← encodeLength cfg t.start stop
        pure ⟨position, t.start, st.output ++ [⟨d.1, d.2, l, t.tag⟩], st.token⟩
      else
        let finalLine := (byteToLine (lines cfg.source) stop).getD (lines cfg.source).length
        let next := lineStart cfg (st.curr.1 + 1)
        let l ← encodeLength cfg t.start (min stop next)
        let st : St := if l ≠ 0 then ⟨position, t.start, st.output ++ [⟨d.1, d.2, l, t.tag⟩], st.token⟩ else st
        if st.curr.1 ≥ finalLine then some st
        else do
          let r ← lineLoop cfg t.tag finalLine stop (finalLine - st.curr.1) (st.curr.1 + 1) next 0 st
          let line ← sub finalLine r.2
          pure ⟨(line, r.1.curr.2), r.1.posOffset, r.1.output, r.1.token⟩

/-- "Push start", semantic_tokens.rs:350-363: the part of the parent's token before a node. -/
def pushStart (cfg : Cfg) (b : Nat) (st : St) : Option St :=
  match st.token with
  | none => some st
  | some t =>
    if t.start < t.stop ∧ t.start < b then
      push cfg ⟨t.tag, t.start, min t.stop b⟩ ⟨st.curr, st.posOffset, st.output, some ⟨t.tag, min t.stop b, t.stop⟩⟩
    else some st

/-- "Push end", semantic_tokens.rs:373-382: what is left of a node's own token. -/
def pushEnd (cfg : Cfg) (own : Option Token) (st : St) : Option St :=
  match own with
  | none => some st
  | some t =>
    if t.start < t.stop then
      push cfg t ⟨st.curr, st.posOffset, st.output, st.token.map fun p => ⟨p.tag, t.stop, p.stop⟩⟩
    else some st

mutual
/-- `tokenize_tree`, semantic_tokens.rs:341-383, for a node at offset `b`. -/
def tokenizeTree (cfg : Cfg) : Node → Nat → St → Option St
  | .leaf text tag, b, st => do
    let st ← pushStart cfg b st
    pushEnd cfg (some ⟨tag, b, b + len8 text⟩) st
  | .inner tag cs, b, st => do
    let st ← pushStart cfg b st
    let own := tag.map fun t => (⟨t, b, b + len8 (forestText cs)⟩ : Token)
    let st' ← tokenizeForest cfg cs b ⟨st.curr, st.posOffset, st.output, own⟩
    pushEnd cfg st'.token ⟨st'.curr, st'.posOffset, st'.output, st.token⟩
/-- The loop over the children, semantic_tokens.rs:367-369. -/
def tokenizeForest (cfg : Cfg) : List Node → Nat → St → Option St
  | [], _, st => some st
  | n :: ns, b, st => do
    let st ← tokenizeTree cfg n b st
    tokenizeForest cfg ns (b + len8 n.text) st
end

/-- `get_semantic_tokens`, semantic_tokens.rs:29-38. -/
def semanticTokens (enc : Encoding) (multiline : Bool) (root : Node) : Option (List Sem) :=
  (tokenizeTree ⟨root.text, enc, multiline⟩ root 0 St.new).map St.output

end Tinymist.Tokens
