import Verif.Model.TypeOffer

/-!
# What should be offered for a type and for a function

Only the data types of the model are used here.
-/

namespace Tinymist.TypeOffer

/-! ## Types -/

/-- The texts offered for a type of the compiler by itself. -/
def NameTexts : TypeName → List (String × String)
  | .bool => [("false", "false"), ("true", "true")]
  | .func => [("function", "(${params}) => ${output}")]
  | _ => []

/-- The texts offered for a built-in type by itself. -/
def Texts : Builtin → List (String × String)
  | .none => [("none", "none")]
  | .auto => [("auto", "auto")]
  | .stroke => [("stroke()", "stroke(${})"), ("()", "(${})")]
  | .color => [("luma()", "luma(${v})"), ("rgb()", "rgb(${r}, ${g}, ${b}, ${a})"), ("cmyk()", "cmyk(${c}, ${m}, ${y}, ${k})"),
    ("oklab()", "oklab(${l}, ${a}, ${b}, ${alpha})"), ("oklch()", "oklch(${l}, ${chroma}, ${hue}, ${alpha})"),
    ("color.linear-rgb()", "color.linear-rgb(${r}, ${g}, ${b}, ${a})"), ("color.hsv()", "color.hsv(${h}, ${s}, ${v}, ${a})"),
    ("color.hsl()", "color.hsl(${h}, ${s}, ${l}, ${a})")]
  | .margin | .inset | .outset | .radius => [("()", "(${})")]
  | .length => [("pt", "${1}pt"), ("mm", "${1}mm"), ("cm", "${1}cm"), ("in", "${1}in"), ("em", "${1}em")]
  | .float => [("exponential notation", "${1}e${0}")]
  | .typeType t | .type t => NameTexts t
  | _ => []

/-- The items of a type by itself, in the text of a string or not: the texts come only outside of one. -/
def Plain (inText : Bool) : Ty → List Out
  | .leaf (.builtin (.path p)) => [.path p]
  | .leaf (.builtin .textFont) => [.fonts]
  | .leaf (.builtin .textFeature) => [.features]
  | .leaf (.builtin .textLang) => if inText then [] else [.languages]
  | .leaf (.builtin .textRegion) => if inText then [] else [.regions]
  | .leaf (.builtin (.type (.scoped n))) => if inText then [] else [.typeName n]
  | .leaf (.builtin (.typeType (.scoped n))) => if inText then [] else [.typeName n]
  | .leaf (.builtin b) => if inText then [] else (Texts b).map fun x => .snippet x.1 x.2
  | .leaf (.sequence _) => if inText then [] else [.snippet "()" "(${})"]
  | .leaf (.dict _) => if inText then [] else [.snippet "()" "(${})"]
  | .leaf (.boolean _) => if inText then [] else [.snippet "false" "false", .snippet "true" "true"]
  | _ => []

/-- Built-in types that another stands for as well. -/
inductive Implies : Builtin → Builtin → Prop
  | strokeColor : Implies .stroke .color
  | strokeLength : Implies .stroke .length
  | margin : Implies .margin .length
  | inset : Implies .inset .length
  | outset : Implies .outset .length
  | radius : Implies .radius .length
  | length : Implies .length .auto
  | none {b} : b = .type .none ∨ b = .typeType .none → Implies b .none
  | auto {b} : b = .type .auto ∨ b = .typeType .auto → Implies b .auto
  | color {b} : b = .type .color ∨ b = .typeType .color → Implies b .color

/-- Types that another one stands for: the parts of a union and of bounds, the type of a parameter that may be given by position, and,
outside of the text of a string, what built-in types and special values imply. -/
inductive Leads (inText : Bool) : Ty → Ty → Prop
  | union {ts t} : t ∈ ts → Leads inText (.node .union ts) t
  | bounds {n ts t} : t ∈ ts → Leads inText (.node (.bounds n) ts) t
  | param {n named ts t} : t ∈ ts → Leads inText (.node (.param n true named) ts) t
  | builtin {b c} : inText = false → Implies b c → Leads inText (.leaf (.builtin b)) (.leaf (.builtin c))
  | type {n d} : inText = false → Leads inText (.leaf (.value (.type n) d)) (.leaf (.builtin (.type n)))
  | none {d} : inText = false → Leads inText (.leaf (.value .none d)) (.leaf (.builtin .none))
  | auto {d} : inText = false → Leads inText (.leaf (.value .auto d)) (.leaf (.builtin .auto))

/-- Items that a type has, but that are offered only once: the name of a parameter that may be given by name, neither in the text of a
string nor behind a mark of a label or a reference; values; constructors; elements; labels of the document. -/
inductive Once (w : Where) : Ty → Key → Prop
  | field {n p ts} : w.inText = false → w.behindMark = false → Once w (.node (.param n p true) ts) (.field n)
  | string {s d} : Once w (.leaf (.value (.str s) d)) (.value (.str s))
  | value {v d} : w.inText = false → Once w (.leaf (.value (.other v) d)) (.value (.other v))
  | constructor {b n} : w.inText = false → b = .type (.constructed n) ∨ b = .typeType (.constructed n) →
      Once w (.leaf (.builtin b)) (.constructor n)
  | element {e} : w.inText = false → Once w (.leaf (.builtin (.element e))) (.element e)
  | label {b l} : w.inText = false → b = .label ∨ b = .type .label ∨ b = .typeType .label → l ∈ w.labels →
      Once w (.leaf (.builtin b)) (.label l)
  | cite {l} : w.inText = false → l ∈ w.cites → Once w (.leaf (.builtin .citeLabel)) (.label l)
  | ref {l} : w.inText = false → l ∈ w.refs → Once w (.leaf (.builtin .refLabel)) (.label l)

/-- What a type stands for in the end, without going through an excluded one. -/
inductive Met (inText : Bool) (excluded : List Ty) (t : Ty) : Ty → Prop
  | here : t ∉ excluded → Met inText excluded t t
  | step {u v} : Met inText excluded t u → Leads inText u v → v ∉ excluded → Met inText excluded t v

/-! ## Functions -/

/-- A callable has the signature, and that many positional arguments were given to it. -/
inductive HasSig : Callable → Nat → Sig → Prop
  | func {s g e o} : HasSig (.func s g e o) 0 s
  | closure {s} : HasSig (.closure s) 0 s
  | given {n c k s} : HasSig c k s → HasSig (.given n c) (k + n) s
  | element {s} : HasSig (.element s) 0 s
  | type {s} : HasSig (.type (some s)) 0 s

/-- It is an element. -/
inductive IsElement : Callable → Prop
  | func {s g o} : IsElement (.func s g true o)
  | element {s} : IsElement (.element s)
  | given {n c} : IsElement c → IsElement (.given n c)

/-- It is a function without parameters but `self`. -/
inductive OnlySelf : Callable → Prop
  | func {s g e} : OnlySelf (.func s g e true)
  | given {n c} : OnlySelf c → OnlySelf (.given n c)

/-- Every one leaves a positional parameter open, and there is one. -/
def NeedsPos (cs : List Callable) : Prop :=
  (∃ c ∈ cs, ∃ k s, HasSig c k s) ∧ ∀ c ∈ cs, ∀ k s, HasSig c k s → k < s.positional.length

/-- Every one has a named parameter, and there is one. -/
def NeedsNamed (cs : List Callable) : Prop :=
  (∃ c ∈ cs, ∃ k s, HasSig c k s) ∧ ∀ c ∈ cs, ∀ k s, HasSig c k s → 0 < s.named

/-- One of them takes more arguments than it has parameters. -/
def TakesMore (cs : List Callable) : Prop := ∃ c ∈ cs, ∃ k s, HasSig c k s ∧ s.rest = true

/-- The next positional parameter of one of them takes content. -/
def NextContent (cs : List Callable) : Prop := ∃ c ∈ cs, ∃ k s, HasSig c k s ∧ s.positional[k]? = some true

/-- There is nothing to put between the parentheses. -/
def NoArguments (bound : Bool) (cs : List Callable) : Prop :=
  (¬ NeedsPos cs ∨ bound = true ∧ ∃ c ∈ cs, OnlySelf c) ∧ ¬ TakesMore cs

/-- The items for a name that may stand for these, at such a place: with `.with` where a show rule transforms, with `.where` in a selector,
alone where it is not called, and with parentheses or brackets. Only elements are offered in selectors and set rules. -/
inductive Offered (around : Around) (math bound parens : Bool) (cs : List Callable) (name : String) : Item → Prop
  | withArgs : around = .showTransform → NeedsPos cs ∨ NeedsNamed cs →
      Offered around math bound parens cs name ⟨name ++ ".with", some (name ++ ".with(${})")⟩
  | filtered : around = .selector → (∃ c ∈ cs, IsElement c) →
      Offered around math bound parens cs name ⟨name ++ ".where", some (name ++ ".where(${})")⟩
  | alone : (around = .selector ∨ around = .setRule → ∃ c ∈ cs, IsElement c) → parens = false ∨ around = .selector →
      Offered around math bound parens cs name ⟨name, none⟩
  | called : (around = .setRule → ∃ c ∈ cs, IsElement c) → parens = true → around ≠ .selector → NoArguments bound cs →
      Offered around math bound parens cs name ⟨name, some (name ++ "()${}")⟩
  | arguments : (around = .setRule → ∃ c ∈ cs, IsElement c) → parens = true → around ≠ .selector → ¬ NoArguments bound cs →
      Offered around math bound parens cs name ⟨name, some (name ++ "(${})")⟩
  | content : around ≠ .selector → around ≠ .setRule → math = false → parens = true → ¬ NoArguments bound cs → NextContent cs →
      ¬ TakesMore cs → Offered around math bound parens cs name ⟨name ++ ".bracket", some (name ++ "[${}]")⟩

/-! ## Parameters and fields -/

/-- A parameter binds the name. -/
inductive Binds : Param → String → Prop
  | pos {ns n} : n ∈ ns → Binds (.pos ns) n
  | named {n} : Binds (.named n) n
  | spread {n} : Binds (.spread (some n)) n

/-- A name, or fields of one. -/
inductive Chain : Target → Prop
  | name : Chain .name
  | field {t} : Chain t → Chain (.field t)

/-- Punctuation or a blank of ASCII. -/
def Punctuation (c : Char) : Prop := c ∈ "!\"#$%&'()*+,-./:;<=>?@[\\]^_`{|}~ \t\n\r\x0c".toList

/-- Text of an equation with punctuation, or without anything. -/
inductive BadText : Target → Prop
  | character {c} : Punctuation c → BadText (.character c)
  | text {cs c} : c ∈ cs → Punctuation c → BadText (.text cs)
  | empty : BadText (.text [])

/-- A field of the value may be accessed here. -/
def Accessible (math : Bool) (t : Target) : Prop := math = true → Chain t

/-- The value may be wrapped here. -/
def Wrappable (math : Bool) (t : Target) : Prop := math = true → ¬ BadText t

/-- A name that is offered behind a dot, for the value before it: something in the scope of its type or of itself, in an equation no
function; its fields; the entries of a dictionary, the fields of content, the settable parameters of an element; and the modifiers of
a symbol. -/
inductive Named (math : Bool) (t : Target) (v : Value) : String → Prop
  | typeScope {m} : Accessible math t → m ∈ v.typeScope → (math = true → m.func = false) → Named math t v m.name
  | scope {m} : Accessible math t → m ∈ v.scope → (math = true → m.func = false) → Named math t v m.name
  | field {n} : Accessible math t → n ∈ v.fields → Named math t v n
  | content {fs n} : Accessible math t → v.own = .content fs → n ∈ fs → Named math t v n
  | dict {es n} : Accessible math t → v.own = .dict es → n ∈ es → Named math t v n
  | param {ps n} : Accessible math t → v.own = .func ps → n ∈ ps → Named math t v n
  | modifier {ms n} : v.own = .symbol ms → n ∈ ms → Named math t v n

end Tinymist.TypeOffer
