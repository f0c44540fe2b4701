/-!
# Inlay hints

Models `crates/tinymist-query/src/inlay_hint.rs` 59-283: the walk over the syntax tree and the choice of arguments, with the
configuration `InlayHintConfig::smart`. What the analysis says about an argument (`analyze_call`, in part in `Model/CallArgs`) is
a part of the tree here. Positions are byte offsets; they are given to the client as in `Model/Position`.
-/
namespace Tinymist.Inlay

abbrev Text := List Char

/-- `ParamKind`. -/
inductive Kind where
  | positional | named | rest
  deriving DecidableEq, Repr

/-- `CallParamInfo`, as far as hints look at it. -/
structure Info where
  kind : Kind
  content : Bool
  name : Text
  deriving DecidableEq, Repr

/-- An item of the argument list: where its node starts, counted from the call, and what is known about it; `none` if the node or
the information is not found. -/
structure Arg where
  rel : Nat
  info : Option Info
  deriving DecidableEq, Repr

/-- A call that could be analyzed: its arguments, and `has_fill_or_size_or_stroke` of the signature. -/
structure Call where
  args : List Arg
  shape : Bool
  deriving DecidableEq, Repr

/-- A syntax node: a leaf of some length, or one with children, which may be a call. -/
inductive Node where
  | leaf (len : Nat)
  | inner (call : Option Call) (children : List Node)

mutual
/-- `len` of a node: that of its text. -/
def size : Node → Nat
  | .leaf n => n
  | .inner _ cs => sizes cs
def sizes : List Node → Nat
  | [] => 0
  | c :: cs => size c + sizes cs
end

/-- A hint: where it is and what it says. -/
structure Hint where
  pos : Nat
  label : Text
  deriving DecidableEq, Repr

/-- The counts of `check_single_pos_arg`, inlay_hint.rs:131-163. -/
structure Count where
  pos : Nat
  rest : Bool
  content : Nat
  deriving DecidableEq, Repr

/-- Its loop, inlay_hint.rs:136-160, with the `break`. -/
def count : Count → List Arg → Count
  | c, [] => c
  | c, a :: as =>
    match a.info with
    | none => count c as
    | some i =>
      if i.kind ≠ .named then
        if i.kind = .rest then count { c with rest := true } as
        else
          let c := if i.content then { c with content := c.content + 1 } else { c with pos := c.pos + 1 }
          if c.pos > 1 ∧ c.content > 1 then c else count c as
      else count c as

/-- `disable_by_single_pos_arg`, inlay_hint.rs:162. -/
def single (args : List Arg) : Bool :=
  let c := count ⟨0, false, 0⟩ args
  decide (c.pos ≤ if c.rest then 0 else 1)

/-- The loop over the arguments, inlay_hint.rs:197-268; `first` is `is_first_variadic_arg`. Content blocks have no hints, because
`on_content_block_args` is off and so `disable_by_single_line_content_block` is true. -/
def hintArgs (start : Nat) (shape sing : Bool) : Bool → List Arg → List Hint
  | _, [] => []
  | first, a :: as =>
    match a.info with
    | none => hintArgs start shape sing first as
    | some i =>
      if i.name = [] then hintArgs start shape sing first as
      else
        match i.kind with
        | .named => hintArgs start shape sing first as
        | .positional =>
          if shape then hintArgs start shape sing first as
          else if i.content || sing then hintArgs start shape sing first as
          else ⟨start + a.rel, i.name ++ [':']⟩ :: hintArgs start shape sing first as
        | .rest =>
          if sing || !first then hintArgs start shape sing false as
          else ⟨start + a.rel, '.' :: '.' :: i.name ++ [':']⟩ :: hintArgs start shape sing false as

/-- `analyze_node`, inlay_hint.rs:103-283. -/
def analyze (start : Nat) : Option Call → List Hint
  | none => []
  | some c => hintArgs start c.shape (single c.args) true c.args

mutual
/-- `work`, inlay_hint.rs:84-101. -/
def work (lo hi : Nat) : Nat → Node → List Hint
  | off, .leaf _ => let _ := (lo, hi, off); []
  | off, .inner c cs =>
    if off ≥ hi ∨ off + sizes cs ≤ lo then [] else analyze off c ++ works lo hi off cs
def works (lo hi : Nat) : Nat → List Node → List Hint
  | _, [] => []
  | off, c :: cs => work lo hi off c ++ works lo hi (off + size c) cs
end

/-- The answer to a request for a range; no hints are answered with nothing, inlay_hint.rs:62-77. -/
def request (lo hi : Nat) (root : Node) : List Hint := work lo hi 0 root

end Tinymist.Inlay
