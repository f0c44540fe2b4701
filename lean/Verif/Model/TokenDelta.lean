/-
Model of `crates/tinymist-query/src/semantic_tokens_delta.rs`.
-/
namespace Tinymist.TokenDelta

/-- `lsp_types::SemanticToken` (external crate, used at semantic_tokens_delta.rs:1,54): five
unsigned integers.  Simplification: `u32` is `Nat`; nothing here does arithmetic on the fields. -/
structure SemanticToken where
  deltaLine : Nat
  deltaStart : Nat
  length : Nat
  tokenType : Nat
  modifiers : Nat
deriving DecidableEq, Repr

/-- `lsp_types::SemanticTokensEdit` as built at semantic_tokens_delta.rs:80-84.
`data` is always `Some` there, so it is a plain list. -/
structure Edit where
  start : Nat
  deleteCount : Nat
  data : List SemanticToken
deriving DecidableEq, Repr

/-- `iter().zip().take_while(|(x, y)| x == y).count()`, semantic_tokens_delta.rs:58-62, 67-72. -/
def commonLen (a b : List SemanticToken) : Nat :=
  ((a.zip b).takeWhile (fun p => p.1 == p.2)).length

/-- `token_delta`, semantic_tokens_delta.rs:54-86.
Simplification: the `u32` products `5 * start as u32` and `5 * from.len() as u32` are `Nat`
(a document would need more than 2^32/5 tokens to overflow them). -/
def tokenDelta (fromToks toToks : List SemanticToken) : List Edit :=
  let start := commonLen fromToks toToks
  let from1 := fromToks.drop start
  let to1 := toToks.drop start
  let distFromEnd := commonLen from1.reverse to1.reverse
  let from2 := from1.take (from1.length - distFromEnd)
  let to2 := to1.take (to1.length - distFromEnd)
  if from2.isEmpty && to2.isEmpty then []
  else [{ start := 5 * start, deleteCount := 5 * from2.length, data := to2 }]

end Tinymist.TokenDelta
