import Verif.Model.Position
/-! What an LSP client means by a position. -/
namespace Tinymist.Position

/-- The unit in which a client counts within a line. -/
def units : Encoding → Text → Nat
  | .utf16, s => len16 s
  | .utf8, s => len8 s

/-- `\n` and `\r` end lines for a client, and `\r\n` ends one line (Language Server Protocol, `EOL`). -/
def noEol (s : Text) : Prop := ∀ c ∈ s, c ≠ '\n' ∧ c ≠ '\r'

/-- `Pos enc s line ch post`: in the text `s`, the position `line`:`ch` is right before `post`. -/
inductive Pos (enc : Encoding) : Text → Nat → Nat → Text → Prop
  | here (cur rest) (h : noEol cur) : Pos enc (cur ++ rest) 0 (units enc cur) rest
  | lf (body rest line ch post) (h : noEol body) (hp : Pos enc rest line ch post) :
      Pos enc (body ++ '\n' :: rest) (line + 1) ch post
  | crlf (body rest line ch post) (h : noEol body) (hp : Pos enc rest line ch post) :
      Pos enc (body ++ '\r' :: '\n' :: rest) (line + 1) ch post
  | cr (body rest line ch post) (h : noEol body) (hr : ∀ t, rest ≠ '\n' :: t) (hp : Pos enc rest line ch post) :
      Pos enc (body ++ '\r' :: rest) (line + 1) ch post

/-- What the client's document becomes: the text between two positions is replaced, or the whole text. -/
inductive ClientChange (enc : Encoding) : Text → Change → Text → Prop
  | range (pre mid post w l1 c1 l2 c2) (h1 : Pos enc (pre ++ mid ++ post) l1 c1 (mid ++ post))
      (h2 : Pos enc (pre ++ mid ++ post) l2 c2 post) :
      ClientChange enc (pre ++ mid ++ post) ⟨some ((l1, c1), (l2, c2)), w⟩ (pre ++ w ++ post)
  | full (s w) : ClientChange enc s ⟨none, w⟩ w

/-- A text in which client and compiler agree on lines, and on columns in the encoding used. -/
def Plain (enc : Encoding) (s : Text) : Prop :=
  (∀ c ∈ s, isNewline c = true → c = '\n' ∨ c = '\r') ∧ (enc = .utf8 → ∀ c ∈ s, c.utf8Size = 1)

/-- A sequence of changes on plain texts. -/
inductive ClientEdits (enc : Encoding) : Text → List Change → Text → Prop
  | nil (s) : ClientEdits enc s [] s
  | cons {s c s' cs s''} (hp : Plain enc s) (h : ClientChange enc s c s') (hs : ClientEdits enc s' cs s'') :
      ClientEdits enc s (c :: cs) s''

end Tinymist.Position
