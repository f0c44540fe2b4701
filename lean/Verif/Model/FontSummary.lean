/-!
# The summary of a font family

Models `summarize_font_family` of `crates/tinymist-analysis/src/upstream/mod.rs`.
-/

namespace Tinymist.FontSummary

/-- `FontStyle`, in its order. -/
inductive Style where
  | normal
  | italic
  | oblique
  deriving DecidableEq, Repr

/-- The place of a style in the order. -/
def Style.rank : Style → Nat
  | .normal => 0
  | .italic => 1
  | .oblique => 2

/-- `FontVariant`: style, weight and stretch, which are compared in this order. -/
structure Variant where
  style : Style
  weight : Nat
  stretch : Nat
  deriving DecidableEq, Repr

/-- The derived order of `FontVariant`. -/
def Variant.le (a b : Variant) : Bool :=
  decide (a.style.rank < b.style.rank) ||
    (decide (a.style.rank = b.style.rank) &&
      (decide (a.weight < b.weight) || (decide (a.weight = b.weight) && decide (a.stretch ≤ b.stretch))))

/-- The variables of the loop (mod.rs:377-385). -/
structure Acc where
  italic : Bool
  min : Nat
  max : Nat
  deriving DecidableEq, Repr

/-- The body of the loop (mod.rs:380-385). -/
def step (a : Acc) (v : Variant) : Acc :=
  let min := Nat.min a.min v.weight
  ⟨a.italic || v.style == .italic, min, Nat.max min v.weight⟩

/-- The loop over the sorted variants (mod.rs:373-385). `u16::MAX` is 65535. -/
def collect (variants : List Variant) : Acc := (variants.mergeSort Variant.le).foldl step ⟨false, 65535, 0⟩

/-- `summarize_font_family` (mod.rs:373-401). -/
def summarize (variants : List Variant) : String :=
  let a := collect variants
  let count := variants.length
  let detail := toString count ++ " variant" ++ (if count = 1 then "" else "s") ++ "."
  let detail := detail ++
    if a.min = a.max then " Weight " ++ toString a.min ++ "." else " Weights " ++ toString a.min ++ "–" ++ toString a.max ++ "."
  if a.italic then detail ++ " Has italics." else detail

end Tinymist.FontSummary
