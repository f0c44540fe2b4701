import Verif.Spec.Trace
import Verif.Props.Framing
import Verif.Lemmas.Pages
/-! # Lemmas about profiling a document -/
namespace Tinymist.Trace
open Framing Pages Spec

theorem dropWhile_head {f : Char → Bool} : ∀ {s : Text}, (∀ c, s.head? = some c → f c = false) → s.dropWhile f = s
  | [], _ => rfl
  | c :: s, h => by rw [List.dropWhile_cons, if_neg (by simp [h c rfl])]

theorem trim_bare {s : Text} (h : Bare s) : trim s = s := by
  unfold trim
  rw [dropWhile_head h.1, dropWhile_head, List.reverse_reverse]
  intro c hc
  exact h.2 c (by rwa [List.head?_reverse] at hc)

theorem splitEq_first : ∀ {k : Text} (v : Text), '=' ∉ k → splitEq (k ++ '=' :: v) = some (k, v)
  | [], v, _ => by simp [splitEq]
  | c :: k, v, h => by
    rw [List.cons_append, splitEq, if_neg (fun e => h (by simp [e])),
      splitEq_first v fun hk => h (List.mem_cons_of_mem _ hk)]
    rfl

theorem stripPrefix_append (pre s : Text) : stripPrefix pre (pre ++ s) = some s := by
  unfold stripPrefix
  rw [if_pos (List.isPrefixOf_iff_prefix.mpr ⟨s, rfl⟩), List.drop_left]

theorem stripPrefix_plain {pre s : Text} (h : Plain s) (hp : pre.head? = some '-') : stripPrefix pre s = none := by
  unfold stripPrefix
  rw [if_neg]
  rw [List.isPrefixOf_iff_prefix]
  rintro ⟨t, rfl⟩
  cases pre with
  | nil => cases hp
  | cons c pre => exact h hp

theorem readArgs_input (sep : Char) (s : Seen) (raw : Text) (rest : List Text) :
    readArgs sep s (("--input=".toList ++ raw) :: rest) =
      (parsePair raw).bind fun kv => readArgs sep { s with inputs := s.inputs ++ [kv] } rest := by
  rw [readArgs.eq_def]
  simp only []
  rw [if_neg (by simp), if_neg (by simp), stripPrefix_append]
  simp only []
  cases parsePair raw <;> rfl

theorem readArgs_font (sep : Char) (s : Seen) (p : Text) (rest : List Text) :
    readArgs sep s (("--font-path=".toList ++ p) :: rest) =
      readArgs sep { s with fonts := s.fonts ++ split sep p } rest := by
  rw [readArgs.eq_def]
  simp only []
  rw [if_neg (by simp), if_neg (by simp), stripPrefix_append]
  have : stripPrefix "--input=".toList ("--font-path=".toList ++ p) = none := by
    unfold stripPrefix
    rw [if_neg (by simp [List.isPrefixOf])]
  rw [this]

theorem readArgs_main (sep : Char) (s : Seen) (a : Text) (rest : List Text) (h : Plain a) (hs : s.main = none) :
    readArgs sep s (a :: rest) = readArgs sep { s with main := some a } rest := by
  rw [readArgs.eq_def]
  simp only []
  rw [if_neg (by rintro rfl; exact h rfl), if_neg (by rintro rfl; exact h rfl), stripPrefix_plain h rfl,
    stripPrefix_plain h rfl]
  simp only []
  rw [if_neg (by rw [hs]; rintro (h2 | h2); exact h h2; cases h2)]

theorem readArgs_rpc (sep : Char) (s : Seen) (v : Text) (rest : List Text) (h : Plain v) (hs : s.rpc = none) :
    readArgs sep s ("--rpc-kind".toList :: v :: rest) = readArgs sep { s with rpc := some v } rest := by
  rw [readArgs.eq_def]
  simp only []
  rw [if_pos trivial, if_neg (by rw [hs]; rintro (h2 | h2); exact h h2; cases h2)]

theorem readArgs_root (sep : Char) (s : Seen) (v : Text) (rest : List Text) (h : Plain v) (hs : s.root = none) :
    readArgs sep s ("--root".toList :: v :: rest) = readArgs sep { s with root := some v } rest := by
  rw [readArgs.eq_def]
  simp only []
  rw [if_neg (by decide), if_pos trivial, if_neg (by rw [hs]; rintro (h2 | h2); exact h h2; cases h2)]

theorem readArgs_fonts (sep : Char) : ∀ (fonts : List Text) (s : Seen),
    readArgs sep s (fontArgs fonts) = some { s with fonts := s.fonts ++ fonts.flatMap (split sep) }
  | [], s => by simp [fontArgs, readArgs]
  | p :: fonts, s => by
    unfold fontArgs
    rw [List.map_cons, readArgs_font]
    have := readArgs_fonts sep fonts { s with fonts := s.fonts ++ split sep p }
    unfold fontArgs at this
    rw [this]
    simp

/-- How each input is read. -/
def readInputs : List (Text × Text) → Option (List (Text × Text))
  | [] => some []
  | (k, v) :: rest => (parsePair (k ++ '=' :: v)).bind fun kv => (readInputs rest).map fun r => kv :: r

theorem inputArgs_strings : ∀ ins : List (Text × Text),
    inputArgs (strings ins) = some (ins.map fun (k, v) => "--input=".toList ++ (k ++ '=' :: v))
  | [] => rfl
  | (k, v) :: ins => by
    have := inputArgs_strings ins
    unfold strings at this ⊢
    rw [List.map_cons, inputArgs, this]
    simp

theorem readArgs_inputs (sep : Char) (tail : List Text) : ∀ (ins : List (Text × Text)) (s : Seen),
    readArgs sep s ((ins.map fun (k, v) => "--input=".toList ++ (k ++ '=' :: v)) ++ tail) =
      (readInputs ins).bind fun r => readArgs sep { s with inputs := s.inputs ++ r } tail
  | [], s => by simp [readInputs]
  | (k, v) :: ins, s => by
    rw [List.map_cons, List.cons_append, readArgs_input, readInputs]
    cases parsePair (k ++ '=' :: v) with
    | none => rfl
    | some kv =>
      simp only [Option.bind_some]
      rw [readArgs_inputs sep tail ins]
      cases readInputs ins with
      | none => rfl
      | some r => simp

theorem readArgs_all (sep : Char) (rpc root main : Text) (ins : List (Text × Text)) (fonts : List Text)
    (h1 : Plain rpc) (h2 : Plain root) (h3 : Plain main) :
    (argsOf ⟨root, main, strings ins, fonts, rpc⟩).bind (readArgs sep Seen.empty) =
      (readInputs ins).map fun r => ⟨some rpc, some root, some main, r, fonts.flatMap (split sep)⟩ := by
  unfold argsOf
  rw [inputArgs_strings]
  simp only [Option.map_some, Option.bind_some, List.cons_append, List.nil_append]
  rw [readArgs_rpc _ _ _ _ h1 rfl, readArgs_root _ _ _ _ h2 rfl, readArgs_main _ _ _ _ h3 rfl, readArgs_inputs]
  cases readInputs ins with
  | none => rfl
  | some r =>
    simp only [Option.bind_some, Option.map_some]
    rw [readArgs_fonts]
    rfl

theorem parsePair_first {k : Text} (v : Text) (hk : '=' ∉ k) :
    parsePair (k ++ '=' :: v) = if trim k = [] then none else some (trim k, trim v) := by
  unfold parsePair
  rw [splitEq_first v hk]

theorem readInputs_passes : ∀ {ins : List (Text × Text)}, (∀ kv ∈ ins, Passes kv) → readInputs ins = some ins
  | [], _ => rfl
  | (k, v) :: ins, h => by
    obtain ⟨h1, h2, h3, h4⟩ := h (k, v) (by simp)
    rw [readInputs, parsePair_first v h2, trim_bare h3, trim_bare h4, if_neg h1,
      readInputs_passes fun kv hkv => h kv (List.mem_cons_of_mem _ hkv)]
    rfl

theorem flatMap_split {sep : Char} : ∀ {fonts : List Text}, (∀ p ∈ fonts, sep ∉ p) → fonts.flatMap (split sep) = fonts
  | [], _ => rfl
  | p :: fonts, h => by
    rw [List.flatMap_cons, split_none (h p (by simp)), flatMap_split fun q hq => h q (List.mem_cons_of_mem _ hq)]
    rfl

/-! ## The reader -/

theorem step_ended (parse : Text → Option Bool) {r : Reader} (h : r.ended = true) : r.step parse = r := by
  unfold Reader.step; rw [if_pos h]

theorem run_ended (parse : Text → Option Bool) : ∀ (n : Nat) {r : Reader}, r.ended = true → r.run parse n = r
  | 0, _, _ => rfl
  | n + 1, r, h => by rw [Reader.run, step_ended parse h, run_ended parse n h]

theorem run_add (parse : Text → Option Bool) : ∀ (a b : Nat) (r : Reader),
    r.run parse (a + b) = (r.run parse a).run parse b
  | 0, b, r => by rw [Nat.zero_add]; rfl
  | a + 1, b, r => by
    rw [Nat.add_right_comm, Reader.run, Reader.run, run_add parse a b]

theorem run_fixed (parse : Text → Option Bool) {r : Reader} (h : r.step parse = r) : ∀ n, r.run parse n = r
  | 0 => rfl
  | n + 1 => by rw [Reader.run, h, run_fixed parse h n]

theorem run_msgs (parse : Text → Option Bool) : ∀ (msgs : List Text) (tail : List Nat) (got : List Text),
    Fits msgs → (∀ m ∈ msgs, parse m = some false) →
    Reader.run parse msgs.length ⟨msgs.flatMap writeMsg ++ tail, false, got, false⟩ = ⟨tail, false, got ++ msgs, false⟩
  | [], tail, got, _, _ => by simp [Reader.run]
  | m :: msgs, tail, got, hf, hp => by
    have hm := readMsg_writeMsg m (Nat.le_sub_one_of_lt (hf m (by simp))) (msgs.flatMap writeMsg ++ tail)
    rw [List.length_cons, Reader.run, List.flatMap_cons, List.append_assoc]
    have hs : Reader.step parse ⟨writeMsg m ++ (msgs.flatMap writeMsg ++ tail), false, got, false⟩ =
        ⟨msgs.flatMap writeMsg ++ tail, false, got ++ [m], false⟩ := by
      unfold Reader.step
      simp only [hm, hp m (by simp), Bool.false_eq_true, if_false]
    rw [hs, run_msgs parse msgs tail (got ++ [m]) (fun x hx => hf x (List.mem_cons_of_mem _ hx))
      fun x hx => hp x (List.mem_cons_of_mem _ hx)]
    simp

end Tinymist.Trace
