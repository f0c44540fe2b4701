import Verif.Model.RustNum

/-!
# The viewers of a preview

Models the data plane of the preview server (`crates/typst-preview/src/lib.rs:79-180`), the actor of one viewer
(`crates/typst-preview/src/actor/webview.rs:24-177`), how websocket frames reach it
(`crates/tinymist/src/tool/preview.rs:658-683`) and how the page reads the positions it is sent
(`tools/typst-preview-frontend/src/ws.ts:284-345`).

Simplified: texts are lists of characters; floats, their printing and parsing, and JSON are parameters; time is an event
(five seconds without another event); rendering is elsewhere (`Model/PreviewRender.lean`).
-/
namespace Tinymist.Viewers

abbrev Text := List Char

/-- `str::split(c)`: the pieces between occurrences of `c` (standard library, never empty). -/
def splitOn (c : Char) : Text → List Text
  | [] => [[]]
  | x :: xs =>
    if x = c then [] :: splitOn c xs
    else match splitOn c xs with
      | [] => [[x]]
      | p :: ps => (x :: p) :: ps

/-- `str::trim` (standard library; white space is Lean's `Char.isWhitespace`, a part of Unicode's). -/
def trim (s : Text) : Text := ((s.dropWhile Char.isWhitespace).reverse.dropWhile Char.isWhitespace).reverse

/-- `str::starts_with`. -/
def startsWith (p s : Text) : Bool := p.isPrefixOf s

/-- A position in the document (`DocumentPosition`, `crates/tinymist-world/src/debug_loc.rs:18-25`). -/
structure Pos (F : Type) where
  page : Nat
  x : F
  y : F
  deriving DecidableEq, Repr

/-- What a viewer asks of the server (webview.rs:131-163): `P` are paths of elements, `L` locations in a frame. -/
inductive Req (F P L : Type) where
  | renderAll
  | jumpToSource (span : Text)
  | viewport (pos : Pos F)
  | resolvePath (p : P)
  | resolvePoint (l : L)
  deriving DecidableEq, Repr

/-- What comes of a message: a request, nothing, the end of the connection, or a panic (which ends it, too). -/
inductive Outcome (F P L : Type) where
  | asks (r : Req F P L)
  | ignored
  | ends
  | panics
  deriving DecidableEq, Repr

/-- What the surroundings know how to read. -/
structure Reads (F P L : Type) where
  /-- `str::parse::<f32>` -/
  float : Text → Option F
  zero : F
  /-- `serde_json::from_str::<Vec<(u32, u32, String)>>` -/
  path : Text → Option P
  /-- `serde_json::from_str` of a location -/
  point : Text → Option L

/-- `usize::MAX`. -/
def usizeMax : Nat := 2 ^ 64 - 1

variable {F P L : Type}

/-- `location.get(i).map(|s| s.parse().unwrap()).unwrap_or(0.)` (webview.rs:143-144); `none` is the panic. -/
def coordinate (rd : Reads F P L) : Option Text → Option F
  | none => some rd.zero
  | some t => rd.float t

/-- The branch for `outline-sync` (webview.rs:139-147). -/
def outlineSync (rd : Reads F P L) (msg : Text) : Outcome F P L :=
  match (splitOn ',' msg)[1]? with
  | none => .panics
  | some loc =>
    match (splitOn ' ' loc)[0]? with
    | none => .panics
    | some n =>
      match RustNum.parse 10 usizeMax n, coordinate rd (splitOn ' ' loc)[1]?, coordinate rd (splitOn ' ' loc)[2]? with
      | some page, some x, some y => .asks (.viewport ⟨page, x, y⟩)
      | _, _, _ => .panics

/-- `serde_json::from_str(…)` with `if let Ok(…)` (webview.rs:149-162). -/
def askJson {A : Type} (read : Text → Option A) (f : A → Req F P L) (msg : Text) : Outcome F P L :=
  match (splitOn ' ' msg)[1]? with
  | none => .panics
  | some t =>
    match read t with
    | some a => .asks (f a)
    | none => .ignored

/-- What comes of a text (webview.rs:131-167). -/
def onText (rd : Reads F P L) (msg : Text) : Outcome F P L :=
  if msg = "current".toList then .asks .renderAll
  else if startsWith "srclocation".toList msg then
    match (splitOn ' ' msg)[1]? with
    | none => .panics
    | some t => .asks (.jumpToSource (trim t))
  else if startsWith "outline-sync".toList msg then outlineSync rd msg
  else if startsWith "srcpath".toList msg then askJson rd.path .resolvePath msg
  else if startsWith "src-point".toList msg then askJson rd.point .resolvePoint msg
  else .ends

/-- A websocket frame, or a broken connection. -/
inductive Frame where
  | text (t : Text)
  | binary (b : List Nat)
  | ping
  | pong
  | close
  | broken
  deriving DecidableEq, Repr

/-- What a frame is to the actor (`bind_streams`, preview.rs:676-680, then webview.rs:119-130): frames that are neither
text nor binary are given as a text. -/
def onFrame (rd : Reads F P L) : Frame → Outcome F P L
  | .text t => onText rd t
  | .binary _ => .ends
  | .ping | .pong | .close => onText rd "unsupported message".toList
  | .broken => .ends

/-! ## What the page is sent -/

/-- `Vec<String>::join(",")` (standard library). -/
def joinComma : List Text → Text
  | [] => []
  | [t] => t
  | t :: ts => t ++ ',' :: joinComma ts

/-- `format!("{page_no} {x} {y}")` (webview.rs:28 and 35). -/
def posText (sh : F → Text) (p : Pos F) : Text := RustNum.print 10 p.page ++ ' ' :: sh p.x ++ ' ' :: sh p.y

/-- `position_req` (webview.rs:24-29). -/
def positionReq (sh : F → Text) (event : Text) (p : Pos F) : Text := event ++ ',' :: posText sh p

/-- `positions_req` (webview.rs:31-38). -/
def positionsReq (sh : F → Text) (event : Text) (ps : List (Pos F)) : Text :=
  event ++ ',' :: joinComma (ps.map (posText sh))

/-- A message is cut at its first comma (ws.ts:285-289); `none` if it has none. -/
def cutComma : Text → Option (Text × Text)
  | [] => none
  | c :: cs => if c = ',' then some ([], cs) else (cutComma cs).map fun (a, b) => (c :: a, b)

/-- `Number.MAX_SAFE_INTEGER`. -/
def maxSafe : Nat := 2 ^ 53 - 1

/-- `cur.split(" ").map(Number)` (ws.ts:327). Simplified: a text that is no number makes it `none` (`NaN`). -/
def readPos (rd : Reads F P L) (t : Text) : Option (Pos F) :=
  match splitOn ' ' t with
  | n :: x :: y :: _ =>
    match RustNum.parse 10 maxSafe n, rd.float x, rd.float y with
    | some page, some x, some y => some ⟨page, x, y⟩
    | _, _, _ => none
  | _ => none

/-- `split(",")`, `trim`, and the pieces that are not empty (ws.ts:319-323). -/
def pieces (t : Text) : List Text := ((splitOn ',' t).map trim).filter fun t => !t.isEmpty

/-- The distance `Math.abs(page - current_page)`. -/
def dist (a b : Nat) : Nat := (a - b) + (b - a)

/-- `positions.reduce(…)` (ws.ts:326-334). -/
def choose (rd : Reads F P L) (current : Nat) (ts : List Text) : Pos F :=
  ts.foldl (fun acc t =>
    match readPos rd t with
    | some p => if dist p.page current ≤ dist acc.page current then p else acc
    | none => acc) ⟨maxSafe, rd.zero, rd.zero⟩

/-- Where the page scrolls to on a message, if it does (ws.ts:307-345). -/
def jumpTo (rd : Reads F P L) (current : Nat) (msg : Text) : Option (Pos F) :=
  match cutComma msg with
  | none => none
  | some (event, rest) =>
    if event = "jump".toList ∨ event = "viewport".toList then
      if (choose rd current (pieces rest)).page = maxSafe then none else some (choose rd current (pieces rest))
    else none

/-! ## The data plane -/

/-- How far a connection is: being upgraded to a websocket, served by its actor, ended, or ended by the panic of
`caster(conn.await).unwrap()` (lib.rs:99). -/
inductive Phase where
  | opening
  | isOpen
  | ended
  | lost
  deriving DecidableEq, Repr

/-- The data plane (lib.rs:150-176) with the tasks of the viewers. -/
structure State where
  /-- `alive_cnt` -/
  alive : Int
  conns : List Phase
  /-- unread messages of `alive_rx` -/
  notes : Nat
  /-- whether the loop runs -/
  up : Bool
  /-- whether there is a `shutdown_tx` -/
  canIdle : Bool
  /-- whether `shutdown_tx` was sent to -/
  shutDown : Bool
  deriving DecidableEq, Repr

def start (canIdle : Bool) : State := ⟨0, [], 0, true, canIdle, false⟩

inductive Event where
  /-- `streams.recv()` -/
  | connect
  /-- `conn.await` is done -/
  | upgraded (i : Nat) (ok : Bool)
  /-- a frame from viewer `i` -/
  | frame (i : Nat) (f : Frame)
  /-- `alive_rx.recv()` -/
  | noted
  /-- `shutdown_bell.tick()` -/
  | idle
  /-- `shutdown_data_plane_rx.recv()` -/
  | stop
  deriving DecidableEq, Repr

/-- Whether the actor goes on after a frame: it breaks out of its loop or panics otherwise. -/
def goesOn : Outcome F P L → Bool
  | .asks _ | .ignored => true
  | .ends | .panics => false

/-- One event (lib.rs:97-176); `none` if it cannot happen. -/
def step (rd : Reads F P L) (s : State) : Event → Option State
  | .connect => if s.up then some { s with alive := s.alive + 1, conns := s.conns ++ [.opening] } else none
  | .upgraded i ok =>
    if s.conns[i]? = some .opening then
      some { s with conns := s.conns.set i (if ok then .isOpen else .lost) }
    else none
  | .frame i f =>
    if s.conns[i]? = some .isOpen then
      if goesOn (onFrame rd f) then some s
      else some { s with conns := s.conns.set i .ended, notes := s.notes + 1 }
    else none
  | .noted => if s.up && 0 < s.notes then some { s with alive := s.alive - 1, notes := s.notes - 1 } else none
  | .idle => if s.up && s.canIdle && s.alive == 0 then some { s with up := false, shutDown := true } else none
  | .stop => if s.up then some { s with up := false } else none

/-- A history of events. -/
def run (rd : Reads F P L) (s : State) : List Event → Option State
  | [] => some s
  | e :: es => (step rd s e).bind fun s' => run rd s' es

end Tinymist.Viewers
