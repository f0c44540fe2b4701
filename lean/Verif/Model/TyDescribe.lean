import Verif.Model.Ty

/-!
# Types in words (tinymist-analysis/src/ty/describe.rs)
-/

namespace Tinymist.Types

abbrev Text := List Char

/-- The texts that do not depend on types: those of leaves (describe.rs 154-204; no text for those that say nothing) and of names. -/
structure Words where
  leaf : Leaf → Text
  name : Nat → Text

/-- The texts of nodes that are described without going into them (describe.rs 145-153, 203-213); none for the others. -/
def ownWord : Head → Text
  | .dict _ => ['d', 'i', 'c', 't', 'i', 'o', 'n', 'a', 'r', 'y']
  | .tuple => ['a', 'r', 'r', 'a', 'y']
  | .array => ['a', 'r', 'r', 'a', 'y']
  | .sig .args _ _ => ['a', 'r', 'g', 'u', 'm', 'e', 'n', 't', 's']
  | .sig .pattern _ _ => ['p', 'a', 't', 't', 'e', 'r', 'n']
  | .param _ => ['p', 'a', 'r', 'a', 'm']
  | .select _ => ['a', 'n', 'y']
  | .unary _ => ['a', 'n', 'y']
  | .binary _ => ['a', 'n', 'y']
  | .cond => ['a', 'n', 'y']
  | .union => []
  | .bounds _ => []
  | .sig .func _ _ => []
  | .withArgs _ _ => []

mutual
/-- `describe` (describe.rs 133-215): the text, what is added to the results, and the functions. -/
def collect (w : Words) : Ty → Text × List Text × List Ty
  | .leaf l => (w.leaf l, [], [])
  | .var _ => ([], [], [])
  | .node h ts =>
    match h with
    | .union => ([], (collectIter w ts).1, (collectIter w ts).2)
    | .bounds _ => ([], (collectIter w ts).1, (collectIter w ts).2)
    | .sig .func s b => ([], [], [.node (.sig .func s b) ts])
    | .withArgs _ _ => collectFirst w ts
    | h => (ownWord h, [], [])

/-- The case of `With` (describe.rs 155-157): the function is the first of the types. -/
def collectFirst (w : Words) : List Ty → Text × List Text × List Ty
  | [] => ([], [], [])
  | t :: _ => collect w t

/-- `describe_iter` (describe.rs 124-131). -/
def collectIter (w : Words) : List Ty → List Text × List Ty
  | [] => ([], [])
  | t :: ts => ((collect w t).2.1 ++ (if (collect w t).1 = [] then [] else [(collect w t).1]) ++ (collectIter w ts).1,
      (collect w t).2.2 ++ (collectIter w ts).2)
end

/-- `"any"` -/
def anyText : Text := ['a', 'n', 'y']

/-- `"$self"` -/
def selfText : Text := ['$', 's', 'e', 'l', 'f']

/-- `") => "` -/
def arrowText : Text := [')', ' ', '=', '>', ' ']

/-- `Vec::dedup`. -/
def dedup : List Text → List Text
  | [] => []
  | a :: l =>
    match dedup l with
    | [] => [a]
    | b :: r => if a = b then b :: r else a :: b :: r

/-- `join(" | ")`. -/
def joinBars : List Text → Text
  | [] => []
  | [a] => a
  | a :: b :: l => a ++ [' ', '|', ' '] ++ joinBars (b :: l)

/-- What is described of a function (describe.rs 78-104), with what goes before it: the parameters, and the body. -/
def signature (w : Words) : Ty → List (Text × Ty) × Option Ty
  | .node (.sig _ s hasBody) ts =>
    let body := if hasBody then ts.getLast? else none
    let inputs := if hasBody then ts.dropLast else ts
    ((inputs.take s.start).map (([], ·)) ++ (s.names.zip (inputs.drop s.start)).map (fun p => (w.name p.1 ++ [':', ' '], p.2)) ++
      (if s.right then inputs.getLast?.toList.map ((['.', '.', ':', ' '], ·)) else []), body)
  | _ => ([], none)

/-- `described` (describe.rs 52): keyed by the types instead of by their hashes. -/
abbrev Described := List (Ty × Text)

mutual
/-- `describe_root` (describe.rs 58-122). Nothing if the `fuel` does not suffice. -/
def describeRoot (w : Words) : Nat → Ty → Described → Option (Option Text × Described)
  | 0, _, _ => none
  | fuel + 1, t, c =>
    match c.lookup t with
    | some s => some (some s, c)
    | none =>
      let (res, rs, fs) := collect w t
      if res ≠ [] then some (some res, c)
      else
        match describeFuncs w fuel fs ((t, selfText) :: c) with
        | none => none
        | some (more, c1) =>
          if rs ++ more = [] then some (none, (t, anyText) :: c1)
          else
            let text := joinBars (dedup ((rs ++ more).mergeSort fun a b => decide (a ≤ b)))
            some (some text, (t, text) :: c1)

/-- The functions (describe.rs 74-107): only the first one is described. -/
def describeFuncs (w : Words) : Nat → List Ty → Described → Option (List Text × Described)
  | 0, _, _ => none
  | _ + 1, [], c => some ([], c)
  | fuel + 1, f :: _, c =>
    let (params, body) := signature w f
    match describeParams w fuel params true c with
    | none => none
    | some (ps, c1) =>
      match body with
      | none => some ([['('] ++ ps ++ arrowText ++ anyText], c1)
      | some b =>
        match describeRoot w fuel b c1 with
        | none => none
        | some (o, c2) => some ([['('] ++ ps ++ arrowText ++ o.getD anyText], c2)

/-- The parameters (describe.rs 81-104): `first` if there was none before. -/
def describeParams (w : Words) : Nat → List (Text × Ty) → Bool → Described → Option (Text × Described)
  | 0, _, _, _ => none
  | _ + 1, [], _, c => some ([], c)
  | fuel + 1, (pre, t) :: ps, first, c =>
    match describeRoot w fuel t c with
    | none => none
    | some (o, c1) =>
      match describeParams w fuel ps false c1 with
      | none => none
      | some (rest, c2) => some ((if first then [] else [',', ' ']) ++ pre ++ o.getD anyText ++ rest, c2)
end

/-- `Ty::describe` (describe.rs 30-33). -/
def describe (w : Words) (fuel : Nat) (t : Ty) : Option (Option Text) := (describeRoot w fuel t []).map (·.1)

end Tinymist.Types
