/-!
# What is offered for a type and for a function

Models `crates/tinymist-query/src/analysis/completion/type.rs`, `func.rs`, `param.rs`, `field_access.rs` and part of `kind.rs` and
`completion.rs`.

Left out: documentation and details of the items. The lists of fonts, paths, languages and regions are one item each here, as is a value;
what there is of a function is below.
-/

namespace Tinymist.TypeOffer

/-! ## Types -/

/-- Types of the compiler: those with a case of their own (type.rs 282-297), those with a constructor, those that have something else in
their scope than methods, and others (type.rs 298-331). -/
inductive TypeName where
  | none | auto | bool | color | label | func
  | constructed (n : Nat)
  | scoped (n : Nat)
  | bare (n : Nat)
  deriving DecidableEq, Repr

/-- Values: `Value::Type`, `none`, `auto`, strings and others. -/
inductive Val where
  | type (t : TypeName)
  | none
  | auto
  | str (s : Nat)
  | other (v : Nat)
  deriving DecidableEq, Repr

/-- `BuiltinTy` (ty/builtin.rs); `quiet` is any one that nothing is offered for (type.rs 157-168, 176, 216). -/
inductive Builtin where
  | none | auto
  | quiet (n : Nat)
  | path (p : Nat)
  | stroke | color | textLang | textRegion | dir | textFont | textFeature
  | margin | inset | outset | radius | length | float
  | label | citeLabel | refLabel
  | typeType (t : TypeName)
  | type (t : TypeName)
  | element (e : Nat)
  deriving DecidableEq, Repr

/-- The variants of `Ty` without parts; `quiet` is any one that nothing is offered for (type.rs 28-37). Where a value was
written and its documentation make it another type (def.rs 506-513). -/
inductive Leaf where
  | quiet (n : Nat)
  | sequence (n : Nat)
  | dict (n : Nat)
  | boolean (b : Option Bool)
  | builtin (b : Builtin)
  | value (v : Val) (doc : Nat)
  deriving DecidableEq, Repr

/-- The variants with parts: the parts of bounds are the upper ones and then the lower ones; that of a parameter is its type. -/
inductive Head where
  | union
  | bounds (upper : Nat)
  | param (name : Nat) (positional named : Bool)
  deriving DecidableEq, Repr

/-- `Ty` (ty/def.rs 36-86). -/
inductive Ty where
  | leaf (l : Leaf)
  | node (h : Head) (ts : List Ty)

mutual
def Ty.same : (a b : Ty) → Decidable (a = b)
  | .leaf a, .leaf b => if h : a = b then isTrue (by rw [h]) else isFalse (by intro e; cases e; exact h rfl)
  | .node g as, .node h bs =>
    match decEq g h, Ty.sameList as bs with
    | isTrue e, isTrue f => isTrue (by rw [e, f])
    | isFalse e, _ => isFalse (by intro x; cases x; exact e rfl)
    | _, isFalse f => isFalse (by intro x; cases x; exact f rfl)
  | .leaf _, .node _ _ => isFalse (by simp)
  | .node _ _, .leaf _ => isFalse (by simp)

def Ty.sameList : (as bs : List Ty) → Decidable (as = bs)
  | [], [] => isTrue rfl
  | [], _ :: _ => isFalse (by simp)
  | _ :: _, [] => isFalse (by simp)
  | a :: as, b :: bs =>
    match Ty.same a b, Ty.sameList as bs with
    | isTrue e, isTrue f => isTrue (by rw [e, f])
    | isFalse e, _ => isFalse (by intro x; cases x; exact e rfl)
    | _, isFalse f => isFalse (by intro x; cases x; exact f rfl)
end

instance : DecidableEq Ty := Ty.same

/-- What is offered only once: a named argument (`seen_fields`, completion.rs 446-448), or a value under a name (`seen_casts`,
typst_specific.rs 120-122, 186-189): the text of it, the constructor of a type, an element or a label. -/
inductive Key where
  | field (name : Nat)
  | value (v : Val)
  | constructor (n : Nat)
  | element (e : Nat)
  | label (l : Nat)
  deriving DecidableEq, Repr

/-- An item of the list. -/
inductive Out where
  | snippet (label apply : String)
  | once (k : Key)
  | typeName (n : Nat)
  | path (p : Nat)
  | languages | regions | fonts | features
  deriving DecidableEq, Repr

/-- Where the cursor is: in the text of a string (`SurroundingSyntax::StringContent`), and behind a name that follows `<` or `@`
(type.rs 119-125). The labels of the document that `label_completions_` takes for labels, for citations and for references
(typst_specific.rs 93-111). -/
structure Where where
  inText : Bool
  behindMark : Bool
  labels : List Nat
  cites : List Nat
  refs : List Nat

/-- The filter (completion.rs 694-703). -/
def Where.passes (w : Where) (t : Ty) : Bool :=
  if w.inText then
    match t with
    | .leaf (.builtin (.path _)) => true
    | .leaf (.builtin .textFont) => true
    | .leaf (.builtin .textFeature) => true
    | .leaf (.value (.str _) _) => true
    | _ => false
  else true

/-- What is done for a type, in order: an item is offered, one is offered if it was not before, or another type is gone into. -/
inductive Step where
  | emit (o : Out)
  | once (k : Key)
  | sub (t : Ty)

/-- `snippet_completion` (type.rs 11-17): the filter is asked about `Ty::Any`. -/
def snippet (w : Where) (label apply : String) : List Step :=
  if w.passes (.leaf (.quiet 0)) then [.emit (.snippet label apply)] else []

def sub (b : Builtin) : Step := .sub (.leaf (.builtin b))

/-- Types of the compiler (type.rs 279-331). -/
def typeSteps (w : Where) : TypeName → List Step
  | .none => [sub .none]
  | .auto => [sub .auto]
  | .bool => snippet w "false" "false" ++ snippet w "true" "true"
  | .color => [sub .color]
  | .label => w.labels.map fun l => .once (.label l)
  | .func => snippet w "function" "(${params}) => ${output}"
  | .constructed n => [.once (.constructor n)]
  | .scoped n => [.emit (.typeName n)]
  | .bare _ => []

/-- `builtin_type_completion` (type.rs 151-344). -/
def builtinSteps (w : Where) : Builtin → List Step
  | .none => snippet w "none" "none"
  | .auto => snippet w "auto" "auto"
  | .quiet _ => []
  | .path p => [.emit (.path p)]
  | .stroke => snippet w "stroke()" "stroke(${})" ++ snippet w "()" "(${})" ++ [sub .color, sub .length]
  | .color =>
    snippet w "luma()" "luma(${v})" ++ snippet w "rgb()" "rgb(${r}, ${g}, ${b}, ${a})" ++
    snippet w "cmyk()" "cmyk(${c}, ${m}, ${y}, ${k})" ++ snippet w "oklab()" "oklab(${l}, ${a}, ${b}, ${alpha})" ++
    snippet w "oklch()" "oklch(${l}, ${chroma}, ${hue}, ${alpha})" ++
    snippet w "color.linear-rgb()" "color.linear-rgb(${r}, ${g}, ${b}, ${a})" ++
    snippet w "color.hsv()" "color.hsv(${h}, ${s}, ${v}, ${a})" ++ snippet w "color.hsl()" "color.hsl(${h}, ${s}, ${l}, ${a})"
  | .textLang => [.emit .languages]
  | .textRegion => [.emit .regions]
  | .dir => []
  | .textFont => [.emit .fonts]
  | .textFeature => [.emit .features]
  | .margin => snippet w "()" "(${})" ++ [sub .length]
  | .inset => snippet w "()" "(${})" ++ [sub .length]
  | .outset => snippet w "()" "(${})" ++ [sub .length]
  | .radius => snippet w "()" "(${})" ++ [sub .length]
  | .length =>
    snippet w "pt" "${1}pt" ++ snippet w "mm" "${1}mm" ++ snippet w "cm" "${1}cm" ++ snippet w "in" "${1}in" ++
    snippet w "em" "${1}em" ++ [sub .auto]
  | .float => snippet w "exponential notation" "${1}e${0}"
  | .label => w.labels.map fun l => .once (.label l)
  | .citeLabel => w.cites.map fun l => .once (.label l)
  | .refLabel => w.refs.map fun l => .once (.label l)
  | .typeType t => typeSteps w t
  | .type t => typeSteps w t
  | .element e => [.once (.element e)]

/-- `type_completion` (type.rs 19-149) behind the check that the type is new. A named argument that is not shown is not remembered
either, which nobody sees. -/
def steps (w : Where) : Ty → List Step
  | .node .union ts => ts.map .sub
  | .node (.bounds _) ts => ts.map .sub
  | .node (.param name positional named) ts =>
    (if positional then ts.map .sub else []) ++
    (if named && w.passes (.node (.param name positional named) ts) && !w.behindMark then [.once (.field name)] else [])
  | .leaf l =>
    if w.passes (.leaf l) then
      match l with
      | .quiet _ => []
      | .sequence _ => snippet w "()" "(${})"
      | .dict _ => snippet w "()" "(${})"
      | .boolean _ => snippet w "false" "false" ++ snippet w "true" "true"
      | .builtin b => builtinSteps w b
      | .value (.type t) _ => [sub (.type t)]
      | .value .none _ => [sub .none]
      | .value .auto _ => [sub .auto]
      | .value v _ => [.once (.value v)]
    else []

/-- `seen_types`, `seen_fields` with `seen_casts`, and `completions` of the worker (completion.rs 410-420). -/
structure State where
  seen : List Ty
  keys : List Key
  out : List Out

mutual
/-- `type_completion` (type.rs 19-24), as deep as `fuel`. -/
def offer (w : Where) : (fuel : Nat) → Ty → State → State
  | 0, _, s => s
  | fuel + 1, t, s => if t ∈ s.seen then s else run w fuel (steps w t) { s with seen := t :: s.seen }

def run (w : Where) (fuel : Nat) : List Step → State → State
  | [], s => s
  | .emit o :: rest, s => run w fuel rest { s with out := s.out ++ [o] }
  | .once k :: rest, s =>
    run w fuel rest (if k ∈ s.keys then s else { s with keys := k :: s.keys, out := s.out ++ [.once k] })
  | .sub t :: rest, s => run w fuel rest (offer w fuel t s)
end

mutual
/-- How deep a type is. -/
def depth : Ty → Nat
  | .leaf _ => 5
  | .node _ ts => depths ts + 1

def depths : List Ty → Nat
  | [] => 0
  | t :: ts => Nat.max (depth t) (depths ts)
end

/-- Completion by a type (completion.rs 704-711). `self`: the type of the expression at the cursor, which is not offered
(completion.rs 509-516); `named`: the names of the arguments or fields that are there (completion.rs 593-610). -/
def typeCompletions (w : Where) (self : Option Ty) (named : List Nat) (t : Ty) : List Out :=
  (offer w (depth t + 1) t ⟨self.toList, named.map .field, []⟩).out

/-- `prefix_matcher.by_ref()` until the character was found (completion.rs 532-537): what is behind it. -/
def after (ch : Char) : List Char → Option (List Char)
  | [] => none
  | c :: cs => if c = ch then some cs else after ch cs

/-- The closure of `retain` (completion.rs 529-543). -/
def fits : (prefix' : List Char) → (label : List Char) → Bool
  | [], _ => true
  | ch :: rest, label =>
    match after ch label with
    | some cs => fits rest cs
    | none => false

/-- The filter by the name at the cursor (completion.rs 525-545): `prefix'` is the part of it before the cursor. -/
def narrowed (prefix' : Option (List Char)) (labels : List (List Char)) : List (List Char) :=
  match prefix' with
  | some p => labels.filter (fits p)
  | none => labels

/-! ## Functions -/

/-- `SigTy`, as far as it matters here: for each positional parameter whether it takes content, how many named ones there are, and whether
more arguments are taken. -/
structure Sig where
  positional : List Bool
  named : Nat
  rest : Bool
  deriving DecidableEq, Repr

/-- What a name may stand for: a function, with the number of arguments that were given to it by `with` when it was evaluated, whether it is
an element and whether no parameter of it has another name than `self`; the type of a function; one with arguments given; the type of an
element; a type with its constructor; anything else (kind.rs 102-222). -/
inductive Callable where
  | func (s : Sig) (given : Nat) (element onlySelf : Bool)
  | closure (s : Sig)
  | given (n : Nat) (c : Callable)
  | element (s : Sig)
  | type (constructor : Option Sig)
  | other
  deriving Repr

/-- `FnCompletionFeat` (kind.rs 70-79). -/
structure Feat where
  minPos : Option Nat
  onlySelf : Bool
  minNamed : Option Nat
  rest : Bool
  content : Bool
  element : Bool
  deriving DecidableEq, Repr

/-- `check_sig` (kind.rs 224-238). -/
def Feat.sig (f : Feat) (s : Sig) (idx : Nat) : Feat :=
  { f with
    rest := f.rest || s.rest
    content := f.content || (s.positional[idx]? == some true)
    minPos := some (f.minPos.elim (s.positional.length - idx) fun v => Nat.min v (s.positional.length - idx))
    minNamed := some (f.minNamed.elim s.named fun v => Nat.min v s.named) }

/-- `check_one` (kind.rs 102-222): `bound` if it is called on a value. `type_sig` (sig.rs 53-57) has nothing of the arguments a function was
given before. -/
def Feat.check (bound : Bool) (f : Feat) : Callable → Nat → Feat
  | .func s _ element onlySelf, idx =>
    Feat.sig { f with element := f.element || element, onlySelf := f.onlySelf || (bound && onlySelf) } s idx
  | .closure s, idx => f.sig s idx
  | .given n c, idx => Feat.check bound f c (idx + n)
  | .element s, idx => Feat.sig { f with element := true } s idx
  | .type (some s), idx => f.sig s idx
  | .type none, _ => f
  | .other, _ => f

/-- `FnCompletionFeat::check` (kind.rs 82-88) of all that a name may stand for. -/
def feat (bound : Bool) (cs : List Callable) : Feat := cs.foldl (fun f c => f.check bound c 0) ⟨none, false, none, false, false, false⟩

/-- `SurroundingSyntax` (matcher.rs), those that matter here. -/
inductive Around where
  | regular | selector | showTransform | setRule
  deriving DecidableEq, Repr

/-- An item: its label, and what it inserts if not its label; the rest of `apply` is behind the name. -/
structure Item where
  label : String
  apply : Option String
  deriving DecidableEq, Repr

/-- `func_completion` (func.rs 6-86). -/
def funcItems (around : Around) (math : Bool) (f : Feat) (name : String) (parens : Bool) : List Item :=
  let minPos := f.minPos.getD 0
  let minNamed := f.minNamed.getD 0
  (if around = .showTransform ∧ (minPos > 0 ∨ minNamed > 0) then [⟨name ++ ".with", some (name ++ ".with(${})")⟩] else []) ++
  (if f.element ∧ around = .selector then [⟨name ++ ".where", some (name ++ ".where(${})")⟩] else []) ++
  (if (around = .selector ∨ around = .setRule) ∧ f.element = false then []
   else if parens = false ∨ around = .selector then [⟨name, none⟩]
   else if (minPos < 1 ∨ f.onlySelf) ∧ f.rest = false then [⟨name, some (name ++ "()${}")⟩]
   else
    [⟨name, some (name ++ "(${})")⟩] ++
    (if ¬ (math ∨ around = .selector ∨ around = .setRule) ∧ f.content ∧ f.rest = false then
      [⟨name ++ ".bracket", some (name ++ "[${}]")⟩] else []))

/-! ## Parameters -/

/-- A parameter with the names it binds. -/
inductive Param where
  | pos (names : List String)
  | named (name : String)
  | spread (sink : Option String)

/-- `complete_params` (param.rs 12-60): `captures` are the names the body takes from outside of it. -/
def paramItems (name : Option String) (params : List Param) (captures : List String) : List String :=
  let bindings := name.toList ++ params.flatMap fun
    | .pos names => names
    | .named n => [n]
    | .spread sink => sink.toList
  captures.filter fun c => !bindings.contains c

/-! ## Fields -/

/-- What is before a dot in an equation: `ast::FieldAccess`, a name, text of an equation, other text or something else. -/
inductive Target where
  | field (target : Target)
  | name
  | character (c : Char)
  | number
  | text (cs : List Char)
  | other

/-- `is_valid_math_field_access` (field_access.rs 174-183). -/
def Target.accessible : Target → Bool
  | .field t => t.accessible
  | .name => true
  | _ => false

/-- `bad_punc_text` (field_access.rs 186-188), with `char::is_ascii_punctuation` and `char::is_ascii_whitespace`. -/
def punctuation (c : Char) : Bool :=
  (33 ≤ c.toNat && c.toNat ≤ 47) || (58 ≤ c.toNat && c.toNat ≤ 64) || (91 ≤ c.toNat && c.toNat ≤ 96) || (123 ≤ c.toNat && c.toNat ≤ 126) ||
    c = ' ' || c = '\t' || c = '\n' || c.toNat = 12 || c = '\r'

/-- `is_valid_math_postfix` (field_access.rs 185-203). -/
def Target.postfixed : Target → Bool
  | .character c => !punctuation c
  | .number => true
  | .text cs => !cs.isEmpty && cs.all fun c => !punctuation c
  | _ => true

/-- Something in the scope of a type or a value: whether it is a function, and not an element (`is_func`, field_access.rs 170-172). -/
structure Member where
  name : String
  func : Bool
  deriving DecidableEq, Repr

/-- Kinds of values with items of their own (field_access.rs 70-113): the modifiers of a symbol, the fields of content, the entries of a
dictionary, the settable parameters of an element for which styles are known, and nothing for others. -/
inductive Own where
  | symbol (modifiers : List String)
  | content (fields : List String)
  | dict (entries : List String)
  | func (params : List String)
  | other

/-- A value: what is in the scope of its type and of itself, its fields, and its own. -/
structure Value where
  typeScope : List Member
  scope : List Member
  fields : List String
  own : Own

/-- `value_field_access_completions` (field_access.rs 118-167). -/
def memberItems (math : Bool) (v : Value) : List String :=
  (v.typeScope.filter fun m => !(math && m.func)).map (·.name) ++ (v.scope.filter fun m => !(math && m.func)).map (·.name) ++ v.fields

/-- An item behind a dot: a name, a snippet that wraps the value, or a function called on it. -/
inductive DotItem where
  | name (n : String)
  | postfixes
  | functions
  deriving DecidableEq, Repr

/-- `value_dot_access_completions` (field_access.rs 52-116): `none` if the type is to be asked. -/
def dotItems (math : Bool) (target : Target) (values : List Value) : Option (List DotItem) :=
  match values with
  | [] => none
  | v :: _ =>
    let accessible := !math || target.accessible
    let postfixed := !math || target.postfixed
    if !accessible && !postfixed then none
    else some (
      (if accessible then (memberItems math v).map .name else []) ++
      (if postfixed then [.postfixes] else []) ++
      match v.own with
      | .symbol ms => ms.map .name ++ (if postfixed then [.functions] else [])
      | .content fs => (if accessible then fs.map .name else []) ++ (if postfixed then [.functions] else [])
      | .dict es => if accessible then es.map .name else []
      | .func ps => if accessible then ps.map .name else []
      | .other => [])

end Tinymist.TypeOffer
