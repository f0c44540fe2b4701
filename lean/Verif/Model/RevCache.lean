/-!
# Analyses kept across revisions

Model of crates/tinymist-query/src/adt/revision.rs, of `IncrCacheMap`, `AnalysisRevCache`, `AnalysisRevLock` and `Analysis::enter` in
crates/tinymist-query/src/analysis/global.rs, and of `expr_of` in crates/tinymist-query/src/syntax/expr.rs.

Texts, scopes of exports and the rest of an analysis are numbers; hashes of them are taken to be the things themselves. Which files a text
imports is a function of the text: imports computed at run time, and modules reached through other modules, are not in here. Every question
is answered in one step: questions that are answered at the same time are in `Waiting`.
-/

namespace Tinymist.RevCache

abbrev Fid := Nat
abbrev Src := Nat
/-- The exports of a file; none are 0, the default. -/
abbrev Exp := Nat

/-- What a text means: the files imported at its top level, those imported anywhere, the exports known after the first pass
(`check_root_scope`, `summarize_scope`), those after the second and everything else that is found out. -/
structure Lang where
  roots : Fid → Src → List Fid
  targets : Fid → Src → List Fid
  scope : Fid → Src → List (Fid × Exp) → Exp
  exports : Fid → Src → List (Fid × Exp) → Exp
  body : Fid → Src → List (Fid × Exp) → Nat

/-- `ExprInfoRepr` (tinymist-analysis/src/syntax/def.rs 45-57). -/
structure Info where
  fid : Fid
  rev : Nat
  src : Src
  imports : List (Fid × Exp)
  exports : Exp
  body : Nat
  deriving DecidableEq, Repr

/-- The world of a question: its revision and its files. -/
structure World where
  rev : Nat
  files : Fid → Option Src

/-! ## `IncrCacheMap` -/

/-- `IncrCacheMap` (global.rs 1038-1043): its maps are shared, so they are known by their addresses; the global one is the same for all. -/
structure Incr where
  rev : Nat
  prev : Nat
  next : Nat
  deriving DecidableEq, Repr

/-- The maps: `heap` has those of the revisions by their addresses, `global` the one shared by all. -/
structure Maps (K V : Type) where
  heap : Nat → K → Option V
  global : List (K × Nat × V)

variable {K V : Type} [DecidableEq K]

/-- Lookup in the global map. -/
def lookup (k : K) : List (K × Nat × V) → Option (Nat × V)
  | [] => none
  | (k', v) :: l => if k' = k then some v else lookup k l

/-- The value of a key in the global map is replaced if it is of an older revision (global.rs 1076-1087). -/
def put (k : K) (rev : Nat) (v : V) : List (K × Nat × V) → List (K × Nat × V)
  | [] => [(k, rev, v)]
  | (k', r, u) :: l => if k' = k then (if r < rev then (k', rev, v) :: l else (k', r, u) :: l) else (k', r, u) :: put k rev v l

/-- A map with one more value. -/
def set (h : Nat → K → Option V) (a : Nat) (k : K) (v : V) : Nat → K → Option V :=
  fun b j => if b = a ∧ j = k then some v else h b j

/-- `IncrCacheMap::compute` (global.rs 1057-1092). `f` may use the maps itself; `none` if it does not come to an end. -/
def compute (m : Incr) (k : K) (f : Option V → Maps K V → Option (V × Maps K V)) (c : Maps K V) : Option (V × Maps K V) :=
  match c.heap m.next k with
  | some v => some (v, c)
  | none =>
    match f ((c.heap m.prev k).orElse fun _ => (lookup k c.global).map (·.2)) c with
    | none => none
    | some (v, c) => some (v, ⟨set c.heap m.next k v, put k m.rev v c.global⟩)

/-! ## `expr_of` -/

abbrev Key := Fid × Src
abbrev Cache := Maps Key Info
/-- `ExprRoute`: the files being analysed, with what is known of their exports. -/
abbrev Route := List (Fid × Option Exp)

abbrev Stage := Fid → Src → Route → Cache → Option (Info × Cache)

/-- `SharedContext::exports_of` (global.rs 742-752). -/
def exportsOf (stage : Stage) (route : Route) (f : Fid) (s : Src) (c : Cache) : Option (Option Exp × Cache) :=
  match route.lookup f with
  | some e => some (e, c)
  | none => (stage f s route c).map fun r => (some r.1.exports, r.2)

/-- Whether the exports of the imports are as they were (expr.rs 48-60). The order is that of the hash map. -/
def validate (stage : Stage) (files : Fid → Option Src) (route : Route) : List (Fid × Exp) → Cache → Option (Bool × Cache)
  | [], c => some (true, c)
  | (f, e) :: rest, c =>
    match files f with
    | none => some (false, c)
    | some s =>
      match exportsOf stage route f s c with
      | none => none
      | some (none, c) => validate stage files route rest c
      | some (some e', c) => if e = e' then validate stage files route rest c else some (false, c)

/-- `ExprWorker::exports_of` (expr.rs 1225-1235) for the imports of a pass. -/
def gather (stage : Stage) (files : Fid → Option Src) (route : Route) : List Fid → Cache → Option (List (Fid × Exp) × Cache)
  | [], c => some ([], c)
  | f :: rest, c =>
    match files f with
    | none => (gather stage files route rest c).map fun r => ((f, 0) :: r.1, r.2)
    | some s =>
      match exportsOf stage route f s c with
      | none => none
      | some (e, c) => (gather stage files route rest c).map fun r => ((f, e.getD 0) :: r.1, r.2)

/-- What `expr_of` makes of a text that is not known (expr.rs 69-142): two passes. -/
def analyse (L : Lang) (w : World) (stage : Stage) (f : Fid) (s : Src) (route : Route) (c : Cache) : Option (Info × Cache) :=
  match gather stage w.files ((f, none) :: route) (L.roots f s) c with
  | none => none
  | some (imps, c) =>
    (gather stage w.files ((f, some (L.scope f s imps)) :: route) (L.targets f s) c).map fun r =>
      (⟨f, w.rev, s, r.1, L.exports f s r.1, L.body f s r.1⟩, r.2)

/-- `expr_of` (expr.rs 30-142). -/
def exprOf (L : Lang) (w : World) (stage : Stage) (f : Fid) (s : Src) (route : Route) (prev : Option Info) (c : Cache) : Option (Info × Cache) :=
  match prev with
  | none => analyse L w stage f s route c
  | some p =>
    if p.src ≠ s then analyse L w stage f s route c
    else
      match validate stage w.files ((f, none) :: route) p.imports c with
      | none => none
      | some (true, c) => some (p, c)
      | some (false, c) => analyse L w stage f s route c

/-- `SharedContext::expr_stage_` (global.rs 730-740), with a bound on the depth of imports. -/
def stage (L : Lang) (w : World) (m : Incr) : Nat → Stage
  | 0 => fun _ _ _ _ => none
  | n + 1 => fun f s route c => compute m (f, s) (exprOf L w (stage L w m n) f s route) c

/-! ## Revisions -/

/-- `RevisionSlot<AnalysisRevSlot>` (revision.rs 20-23, global.rs 1276-1282). `files` is not in the program: the files of the world the slot
was made for. -/
structure Slot where
  rev : Nat
  incr : Incr
  files : Fid → Option Src

/-- `AnalysisRevLock` (global.rs 1250-1254) with `RevisionLock`, and the slot and world of its question once it is entered. -/
structure Lock where
  id : Nat
  est : Nat
  ctx : Option (Slot × World)

/-- `AnalysisRevCache` (global.rs 1181-1185) with its `RevisionManager` (revision.rs 39-43), the maps of analyses, the questions going on
and the collections of garbage that were asked for. `fresh` is the next address. The map `locked` counts the locks of `locks`. -/
structure St where
  cache : Cache
  fresh : Nat
  dflt : Incr
  slots : List Slot
  est : Nat
  locks : List Lock
  gcs : List Nat

/-- `AnalysisRevCache::default`. -/
def init : St := ⟨⟨fun _ _ => none, []⟩, 2, ⟨0, 0, 1⟩, [], 0, [], []⟩

/-- The newest slot that is not newer than the revision (revision.rs 85-89). -/
def base (slots : List Slot) (rev : Nat) : Option Slot :=
  (slots.filter (·.rev ≤ rev)).foldl (fun acc y => match acc with
    | none => some y
    | some x => some (if x.rev > y.rev then x else y)) none

/-- `AnalysisRevCache::find_revision` (global.rs 1226-1245) with `RevisionManager::find_revision` (revision.rs 80-104) and
`IncrCacheMap::crawl` (global.rs 1094-1101). -/
def findRevision (st : St) (w : World) : Slot × St :=
  match base st.slots w.rev with
  | some b =>
    if b.rev = w.rev then (b, st)
    else
      let slot : Slot := ⟨w.rev, ⟨w.rev, b.incr.next, st.fresh⟩, w.files⟩
      (slot, { st with slots := st.slots ++ [slot], est := max w.rev st.est, fresh := st.fresh + 1 })
  | none =>
    let slot : Slot := ⟨w.rev, st.dflt, w.files⟩
    (slot, { st with slots := st.slots ++ [slot], est := max w.rev st.est })

/-- The greatest of some numbers. -/
def greatest : List Nat → Option Nat
  | [] => none
  | a :: l => some (l.foldl max a)

/-- The least of some numbers. -/
def least : List Nat → Option Nat
  | [] => none
  | a :: l => some (l.foldl min a)

/-- `RevisionManager::unlock` (revision.rs 106-127), where `locks` are those that are left. -/
def unlock (slots : List Slot) (est : Nat) (locks : List Lock) : Option Nat :=
  if locks.any (·.est = est) then none
  else
    match least (locks.map (·.est)) with
    | some e => some e
    | none => greatest (slots.map (·.rev))

/-- The newest revision of values of a file in the global map (global.rs 1194-1199). -/
def newest (f : Fid) (l : List (Key × Nat × Info)) : Nat := ((l.filter fun e => e.2.2.fid = f).map fun e => e.2.2.rev).foldl max 0

inductive Op where
  /-- a question is put: `Analysis::lock_revision` (global.rs 131-153) -/
  | lock (id : Nat)
  /-- the question is begun: `Analysis::enter_` (global.rs 94-116) -/
  | enter (id : Nat) (w : World)
  /-- the question needs the analysis of a file -/
  | ask (id : Nat) (f : Fid) (n : Nat)
  /-- the question is answered: `AnalysisRevLock::drop` (global.rs 1256-1269) -/
  | drop (id : Nat)
  /-- a collection of garbage is carried out (global.rs 1187-1223) -/
  | gc (i : Nat)
  /-- `Analysis::clear_cache` (global.rs 156-163, 1226-1229) -/
  | clear

/-- The question of this number. -/
def find (id : Nat) (locks : List Lock) : Option Lock := locks.find? (·.id = id)

/-- Garbage of the global map (global.rs 1192-1201). -/
def sweep (c : Cache) : Cache := ⟨c.heap, c.global.filter fun e => e.2.2.rev = newest e.2.2.fid c.global⟩

/-- One step, and the analysis if one is asked for. A number is used for one question, and a question is entered once: in the program the
types of locks see to it. -/
def step (L : Lang) (st : St) : Op → St × Option Info
  | .lock id =>
    match find id st.locks with
    | some _ => (st, none)
    | none => ({ st with locks := st.locks ++ [⟨id, st.est, none⟩] }, none)
  | .enter id w =>
    match find id st.locks with
    | some ⟨_, _, none⟩ =>
      let (slot, st) := findRevision st w
      ({ st with locks := st.locks.map fun l => if l.id = id then { l with ctx := some (slot, w) } else l }, none)
    | _ => (st, none)
  | .ask id f n =>
    match find id st.locks with
    | some ⟨_, _, some (slot, w)⟩ =>
      match w.files f with
      | none => (st, none)
      | some s =>
        match stage L w slot.incr n f s [] st.cache with
        | none => (st, none)
        | some (v, c) => ({ st with cache := c }, some v)
    | _ => (st, none)
  | .drop id =>
    match find id st.locks with
    | none => (st, none)
    | some l =>
      let locks := st.locks.filter (·.id ≠ id)
      ({ st with locks := locks, gcs := st.gcs ++ (unlock st.slots l.est locks).toList }, none)
  | .gc i =>
    match st.gcs[i]? with
    | none => (st, none)
    | some g => ({ st with gcs := st.gcs.eraseIdx i, slots := st.slots.filter (g ≤ ·.rev), cache := sweep st.cache }, none)
  | .clear =>
    ({ st with slots := [], dflt := ⟨0, st.fresh, st.fresh + 1⟩, fresh := st.fresh + 2, cache := ⟨st.cache.heap, []⟩ }, none)

def run (L : Lang) (st : St) (ops : List Op) : St := ops.foldl (fun st o => (step L st o).1) st

/-! ## Types -/

/-- `TypeInfo`: its revision is that of the analysis it was made from (tyck.rs 38-40); types are numbers. -/
structure TyInfo where
  rev : Nat
  ty : Nat
  deriving DecidableEq, Repr

/-- Both caches. -/
structure Both where
  cache : Cache
  types : Maps Info TyInfo

/-- The types of imported files, as the checker of types needs them. -/
def typesOf (rec : Fid → Src → Both → Option (TyInfo × Both)) (files : Fid → Option Src) : List Fid → Both → Option (List (Fid × Nat) × Both)
  | [], b => some ([], b)
  | t :: ts, b =>
    match files t with
    | none => typesOf rec files ts b
    | some s =>
      match rec t s b with
      | none => none
      | some (v, b) => (typesOf rec files ts b).map fun r => ((t, v.ty) :: r.1, r.2)

/-- `SharedContext::type_check_` (global.rs 761-779), where `typ` makes a type of a text and the types of its imports. Files that import each
other are not in here. -/
def typeOf (L : Lang) (typ : Fid → Src → List (Fid × Nat) → Nat) (w : World) (m : Incr) (n : Nat) : Nat → Fid → Src → Both → Option (TyInfo × Both)
  | 0, _, _, _ => none
  | d + 1, f, s, b =>
    match stage L w m n f s [] b.cache with
    | none => none
    | some (ei, c) =>
      match b.types.heap m.next ei with
      | some v => some (v, ⟨c, b.types⟩)
      | none =>
        let done (v : TyInfo) (b : Both) : TyInfo × Both :=
          (v, ⟨b.cache, ⟨set b.types.heap m.next ei v, put ei m.rev v b.types.global⟩⟩)
        let fresh : Option (TyInfo × Both) :=
          (typesOf (typeOf L typ w m n d) w.files (L.targets f s) ⟨c, b.types⟩).map fun r => done ⟨ei.rev, typ f s r.1⟩ r.2
        match (b.types.heap m.prev ei).orElse fun _ => (lookup ei b.types.global).map (·.2) with
        | some p => if p.rev = ei.rev then some (done p ⟨c, b.types⟩) else fresh
        | none => fresh

end Tinymist.RevCache
