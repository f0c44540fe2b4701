import Verif.Spec.Tokens
import Verif.Lemmas.Position
import Verif.Props.Position
namespace Tinymist.Tokens
open Tinymist.Position

/-! ## Lines by offsets -/

def Bd (s : Text) (x : Nat) : Prop := ∃ pre post, s = pre ++ post ∧ x = len8 pre

theorem Bd.le {s x} (h : Bd s x) : x ≤ len8 s := by
  obtain ⟨p, q, rfl, rfl⟩ := h; rw [len8_append]; omega

theorem startOf_zero (s : Text) : startOf s 0 = 0 := rfl

theorem startOf_big (s : Text) (i : Nat) (h : (lines s).length ≤ i) : startOf s i = len8 s := by
  rw [startOf, List.take_of_length_le h, flatten_lines]

theorem startOf_succ (s : Text) (i : Nat) (h : i < (lines s).length) :
    startOf s (i + 1) = startOf s i + len8 (lines s)[i] := by
  rw [startOf, startOf, List.take_succ_eq_append_getElem h, List.flatten_append, len8_append]
  simp

theorem startOf_le_succ (s : Text) (i : Nat) : startOf s i ≤ startOf s (i + 1) := by
  by_cases h : i < (lines s).length
  · rw [startOf_succ s i h]; omega
  · rw [startOf_big s i (by omega), startOf_big s (i + 1) (by omega)]; omega

theorem startOf_mono (s : Text) {i j : Nat} (h : i ≤ j) : startOf s i ≤ startOf s j := by
  induction j with
  | zero => rw [Nat.le_zero.mp h]; exact Nat.le_refl _
  | succ j ih =>
    by_cases e : i = j + 1
    · rw [e]; exact Nat.le_refl _
    · exact Nat.le_trans (ih (by omega)) (startOf_le_succ s j)

theorem line_ne_nil (s : Text) (i : Nat) (h : i + 1 < (lines s).length) : (lines s)[i] ≠ [] := by
  apply full_lines s
  rw [List.mem_iff_getElem]
  exact ⟨i, by simp; omega, by simp⟩

theorem startOf_lt_succ (s : Text) (i : Nat) (h : i + 1 < (lines s).length) : startOf s i < startOf s (i + 1) := by
  rw [startOf_succ s i (by omega)]
  have := len8_pos (line_ne_nil s i h)
  omega

theorem startOf_le_len (s : Text) (i : Nat) : startOf s i ≤ len8 s := by
  by_cases h : i < (lines s).length
  · rw [← startOf_big s _ (Nat.le_refl _)]; exact startOf_mono s (by omega)
  · rw [startOf_big s i (by omega)]; omega

theorem bd_startOf (s : Text) (i : Nat) : Bd s (startOf s i) :=
  ⟨((lines s).take i).flatten, ((lines s).drop i).flatten, by rw [take_drop, flatten_lines], rfl⟩

theorem lineStart_eq (cfg : Cfg) (i : Nat) : lineStart cfg i = startOf cfg.source i := by
  rw [lineStart, lineToByte]
  split
  · rfl
  · rw [startOf_big _ _ (by omega)]; rfl

/-- The line of an offset. -/
def lineNo (s : Text) (b : Nat) : Nat := lineOf len8 (lines s) b

theorem lineOf_spec (ls : List Text) (hne : ls ≠ []) (b : Nat) :
    lineOf len8 ls b < ls.length ∧ len8 (ls.take (lineOf len8 ls b)).flatten ≤ b ∧
      (lineOf len8 ls b + 1 < ls.length → b < len8 (ls.take (lineOf len8 ls b + 1)).flatten) := by
  induction ls generalizing b with
  | nil => exact (hne rfl).elim
  | cons l ls ih =>
    cases ls with
    | nil => simp [lineOf, len8]
    | cons l' ls =>
      rw [lineOf]
      split
      · rename_i h
        refine ⟨by simp, by simp [len8], fun _ => ?_⟩
        simpa using h
      · rename_i h
        obtain ⟨h1, h2, h3⟩ := ih (by simp) (b - len8 l)
        refine ⟨by rw [List.length_cons]; omega, ?_, ?_⟩
        · rw [List.take_succ_cons, List.flatten_cons, len8_append]; omega
        · intro h4
          rw [List.length_cons] at h4
          have := h3 (by omega)
          rw [List.take_succ_cons, List.flatten_cons, len8_append]; omega
      · intro h; cases h

theorem lineNo_lt (s : Text) (b : Nat) : lineNo s b < (lines s).length := (lineOf_spec _ (lines_ne_nil s) b).1
theorem startOf_lineNo (s : Text) (b : Nat) : startOf s (lineNo s b) ≤ b := (lineOf_spec _ (lines_ne_nil s) b).2.1
theorem lt_startOf_lineNo (s : Text) (b : Nat) (h : lineNo s b + 1 < (lines s).length) :
    b < startOf s (lineNo s b + 1) := (lineOf_spec _ (lines_ne_nil s) b).2.2 h

theorem le_startOf_lineNo (s : Text) (b : Nat) (h : b ≤ len8 s) : b ≤ startOf s (lineNo s b + 1) := by
  by_cases h' : lineNo s b + 1 < (lines s).length
  · exact Nat.le_of_lt (lt_startOf_lineNo s b h')
  · rw [startOf_big _ _ (by omega)]; exact h

/-- Lines before the line of an offset have ended at it. -/
theorem le_lineNo_of {s : Text} {i b : Nat} (hi : i < (lines s).length) (h : startOf s i ≤ b) : i ≤ lineNo s b := by
  by_cases hc : i ≤ lineNo s b
  · exact hc
  · have h1 := lt_startOf_lineNo s b (by omega)
    have h2 := startOf_mono s (show lineNo s b + 1 ≤ i by omega)
    omega

theorem lineNo_le_of {s : Text} {i b : Nat} (h : b < startOf s (i + 1)) : lineNo s b ≤ i := by
  by_cases hc : lineNo s b ≤ i
  · exact hc
  · have h1 := startOf_mono s (show i + 1 ≤ lineNo s b by omega)
    have h2 := startOf_lineNo s b
    omega

theorem lineNo_mono (s : Text) {a b : Nat} (h : a ≤ b) : lineNo s a ≤ lineNo s b :=
  le_lineNo_of (lineNo_lt s a) (Nat.le_trans (startOf_lineNo s a) h)

theorem lineNo_startOf (s : Text) {i : Nat} (h : i < (lines s).length) : lineNo s (startOf s i) = i := by
  apply Nat.le_antisymm
  · by_cases h' : i + 1 < (lines s).length
    · exact lineNo_le_of (startOf_lt_succ s i h')
    · have := lineNo_lt s (startOf s i); omega
  · exact le_lineNo_of h (Nat.le_refl _)

theorem byteToLine_eq (s : Text) (b : Nat) (h : b ≤ len8 s) : byteToLine (lines s) b = some (lineNo s b) := by
  rw [byteToLine, flatten_lines, if_pos h]; rfl

/-! ## Positions -/

def pos (enc : Encoding) (s : Text) (x : Nat) : Nat × Nat := (toLsp enc s x).getD (0, 0)

theorem toLsp_eq (enc : Encoding) {s : Text} {x : Nat} (h : Bd s x) :
    toLsp enc s x = some (pos enc s x) ∧ (pos enc s x).1 = lineNo s x := by
  obtain ⟨pre, post, e, rfl⟩ := h
  obtain ⟨A, hd, t, B, hat, e1, _⟩ := at_of s pre post e
  have h1 := toLsp_at enc hat
  have h2 := lineOf8 hat
  rw [← len8_append, ← e1] at h1 h2
  refine ⟨by rw [pos, h1]; rfl, ?_⟩
  rw [pos, h1]
  exact h2.symm

theorem pos_mono (enc : Encoding) {s : Text} {x y : Nat} (hx : Bd s x) (hy : Bd s y) (h : x < y) :
    lineNo s x < lineNo s y ∨ lineNo s x = lineNo s y ∧ (pos enc s x).2 < (pos enc s y).2 := by
  obtain ⟨h1, h1'⟩ := toLsp_eq enc hx
  obtain ⟨h2, h2'⟩ := toLsp_eq enc hy
  obtain ⟨p, q, e, rfl⟩ := hx
  obtain ⟨p', q', e', rfl⟩ := hy
  have hpre : ∃ m, p' = p ++ m := by
    rcases List.append_eq_append_iff.mp (e.symm.trans e') with ⟨m, hm, _⟩ | ⟨m, hm, _⟩
    · exact ⟨m, hm⟩
    · rw [hm, len8_append] at h; omega
  obtain ⟨m, rfl⟩ := hpre
  have hm : m ≠ [] := by rintro rfl; simp at h
  obtain ⟨a, b, ha, hb, hab⟩ := position_monotone enc s p m q' e' hm
  rw [h1] at ha; rw [h2] at hb
  injection ha with ha; injection hb with hb
  subst ha hb
  rw [before, h1', h2'] at hab
  exact hab

theorem pos_startOf (enc : Encoding) (s : Text) (i : Nat) (h : i < (lines s).length) :
    pos enc s (startOf s i) = (i, 0) := by
  have hat : At (lines s) ((lines s).take i) [] (lines s)[i] ((lines s).drop (i + 1)) := by
    refine ⟨?_, ?_⟩
    · rw [List.nil_append, ← List.drop_eq_getElem_cons h, List.take_append_drop]
    · intro hne
      apply line_ne_nil
      have := List.length_pos_iff.mpr hne
      simp at this; omega
  have := toLsp_at enc hat
  rw [len8_nil, Nat.add_zero] at this
  rw [pos, startOf, this]
  simp only [Option.getD_some, List.length_take, Prod.mk.injEq]
  refine ⟨by omega, ?_⟩
  cases enc <;> rfl

/-! ## Lengths -/

theorem byteToUtf16_eq {s pre post : Text} (h : s = pre ++ post) :
    byteToUtf16 (lines s) (len8 pre) = some (len16 pre) := by
  obtain ⟨A, hd, t, B, hat, e1, _⟩ := at_of s pre post h
  have := byteToUtf16_at hat
  rwa [← len8_append, ← len16_append, ← e1] at this

theorem encodeLength_eq (cfg : Cfg) {pre mid post : Text} (h : cfg.source = pre ++ mid ++ post) :
    encodeLength cfg (len8 pre) (len8 (pre ++ mid)) = some (units cfg.encoding mid) := by
  rw [encodeLength]
  cases cfg.encoding with
  | utf8 =>
    simp only [sub, units]
    rw [len8_append, if_pos (by omega)]
    congr 1; omega
  | utf16 =>
    simp only
    rw [byteToUtf16_eq (h.trans (List.append_assoc ..)), byteToUtf16_eq h]
    simp only [Option.bind_eq_bind, Option.bind_some, sub, units]
    rw [len16_append, if_pos (by omega)]
    congr 1; omega

theorem units_pos (enc : Encoding) {a : Text} (h : a ≠ []) : 0 < units enc a := by
  cases enc
  · exact len16_pos h
  · exact len8_pos h

/-- Two boundaries cut the text in three. -/
theorem bd_three {s : Text} {x y : Nat} (hx : Bd s x) (hy : Bd s y) (h : x ≤ y) :
    ∃ pre mid post, s = pre ++ mid ++ post ∧ x = len8 pre ∧ y = len8 (pre ++ mid) := by
  obtain ⟨p, q, e, rfl⟩ := hx
  obtain ⟨p', q', e', rfl⟩ := hy
  rcases List.append_eq_append_iff.mp (e.symm.trans e') with ⟨m, hm, _⟩ | ⟨m, hm, hq⟩
  · subst hm
    exact ⟨p, m, q', e', rfl, rfl⟩
  · have hz : m = [] := by
      rw [hm, len8_append] at h
      have := length_le_len8 m
      exact List.eq_nil_of_length_eq_zero (by omega)
    subst hz
    refine ⟨p, [], q, by simp [e], rfl, ?_⟩
    rw [hm]; simp

def lenOf (cfg : Cfg) (x y : Nat) : Nat := (encodeLength cfg x y).getD 0

theorem encodeLength_bd (cfg : Cfg) {x y : Nat} (hx : Bd cfg.source x) (hy : Bd cfg.source y) (h : x ≤ y) :
    encodeLength cfg x y = some (lenOf cfg x y) ∧ (lenOf cfg x y = 0 ↔ x = y) := by
  obtain ⟨pre, mid, post, e, rfl, rfl⟩ := bd_three hx hy h
  rw [lenOf, encodeLength_eq cfg e]
  refine ⟨rfl, ?_⟩
  simp only [Option.getD_some]
  rw [len8_append]
  by_cases hm : mid = []
  · subst hm; cases cfg.encoding <;> simp [units, len8, len16]
  · have h1 := units_pos cfg.encoding hm
    have h2 := len8_pos hm
    constructor <;> intro <;> omega

def absOf (cfg : Cfg) (p : Piece) : Abs :=
  ⟨(pos cfg.encoding cfg.source p.start).1, (pos cfg.encoding cfg.source p.start).2, lenOf cfg p.start p.stop, p.tag⟩

theorem describes_absOf (cfg : Cfg) (p : Piece) (hx : Bd cfg.source p.start) (hy : Bd cfg.source p.stop)
    (h : p.start ≤ p.stop) : Describes cfg.encoding cfg.source (absOf cfg p) p := by
  have h1 := (toLsp_eq cfg.encoding hx).1
  obtain ⟨pre, mid, post, e, e1, e2⟩ := bd_three hx hy h
  refine ⟨pre, mid, post, e, e1, e2, h1, ?_, rfl⟩
  rw [absOf, lenOf, e1, e2, encodeLength_eq cfg e]; rfl

/-! ## Decoding -/

def decodeEnd : Nat × Nat → List Sem → Nat × Nat
  | p, [] => p
  | p, t :: ts => decodeEnd (if t.deltaLine = 0 then (p.1, p.2 + t.deltaStart) else (p.1 + t.deltaLine, t.deltaStart)) ts

theorem decode_append (p : Nat × Nat) (a b : List Sem) : decode p (a ++ b) = decode p a ++ decode (decodeEnd p a) b := by
  induction a generalizing p with
  | nil => rfl
  | cons t a ih => simp only [List.cons_append, decode, decodeEnd, ih]

theorem decodeEnd_append (p : Nat × Nat) (a b : List Sem) : decodeEnd p (a ++ b) = decodeEnd (decodeEnd p a) b := by
  induction a generalizing p with
  | nil => rfl
  | cons t a ih => simp only [List.cons_append, decodeEnd, ih]

/-- What has been written so far, as read by a client. -/
structure Reads (cfg : Cfg) (out : List Sem) (E : List Piece) (q : Nat × Nat) : Prop where
  dec : decode (0, 0) out = E.map (absOf cfg)
  fin : decodeEnd (0, 0) out = q

theorem reads_push {cfg : Cfg} {out : List Sem} {E : List Piece} {q : Nat × Nat} (h : Reads cfg out E q)
    (p : Piece) (hx : Bd cfg.source p.start) (d : Nat × Nat)
    (hd : d.1 = (pos cfg.encoding cfg.source p.start).1 - q.1 ∧ q.1 ≤ (pos cfg.encoding cfg.source p.start).1)
    (hd' : if d.1 = 0 then q.2 + d.2 = (pos cfg.encoding cfg.source p.start).2
      else d.2 = (pos cfg.encoding cfg.source p.start).2) :
    Reads cfg (out ++ [⟨d.1, d.2, lenOf cfg p.start p.stop, p.tag⟩]) (E ++ [p])
      (pos cfg.encoding cfg.source p.start) := by
  have e : (if d.1 = 0 then (q.1, q.2 + d.2) else (q.1 + d.1, d.2)) = pos cfg.encoding cfg.source p.start := by
    by_cases hz : d.1 = 0
    · rw [if_pos hz] at hd' ⊢
      rw [hd', show q.1 = (pos cfg.encoding cfg.source p.start).1 by omega]
    · rw [if_neg hz] at hd' ⊢
      rw [hd', show q.1 + d.1 = (pos cfg.encoding cfg.source p.start).1 by omega]
  refine ⟨?_, ?_⟩
  · rw [decode_append, h.dec, h.fin, List.map_append]
    simp only [decode, List.map_cons, List.map_nil, List.append_cancel_left_eq, e]
    rfl
  · rw [decodeEnd_append, h.fin]
    simp only [decodeEnd, e]

theorem delta_eq {a b : Nat × Nat} (h : a.1 < b.1 ∨ a.1 = b.1 ∧ a.2 ≤ b.2) :
    ∃ d, delta a b = some d ∧ (d.1 = b.1 - a.1 ∧ a.1 ≤ b.1) ∧ (if d.1 = 0 then a.2 + d.2 = b.2 else d.2 = b.2) := by
  rw [delta, sub, if_pos (by omega)]
  simp only [Option.bind_eq_bind, Option.bind_some]
  by_cases hz : b.1 - a.1 = 0
  · rw [if_pos hz, sub, if_pos (by omega)]
    refine ⟨_, rfl, ⟨rfl, by omega⟩, ?_⟩
    simp only
    rw [if_pos hz]; omega
  · rw [if_neg hz]
    refine ⟨_, rfl, ⟨rfl, by omega⟩, ?_⟩
    simp only [hz, if_false]

/-! ## Cutting -/

def pieceAt (s : Text) (p : Piece) (i : Nat) : Option Piece :=
  let x := max p.start (startOf s i)
  let y := min p.stop (startOf s (i + 1))
  if x < y then some ⟨x, y, p.tag⟩ else none

theorem cut_eq (s : Text) (p : Piece) (h : p.start ≤ p.stop) :
    cut s p = (List.range' (lineNo s p.start) (lineNo s p.stop + 1 - lineNo s p.start)).filterMap (pieceAt s p) := by
  have h1 := lineNo_mono s h
  have h2 := lineNo_lt s p.stop
  have e : List.range (lines s).length =
      List.range' 0 (lineNo s p.start) ++
        (List.range' (lineNo s p.start) (lineNo s p.stop + 1 - lineNo s p.start) ++
          List.range' (lineNo s p.stop + 1) ((lines s).length - (lineNo s p.stop + 1))) := by
    rw [List.range_eq_range']
    have e1 := List.range'_append_1 (s := lineNo s p.start) (m := lineNo s p.stop + 1 - lineNo s p.start)
      (n := (lines s).length - (lineNo s p.stop + 1))
    rw [show lineNo s p.start + (lineNo s p.stop + 1 - lineNo s p.start) = lineNo s p.stop + 1 by omega] at e1
    rw [e1]
    have e2 := List.range'_append_1 (s := 0) (m := lineNo s p.start)
      (n := lineNo s p.stop + 1 - lineNo s p.start + ((lines s).length - (lineNo s p.stop + 1)))
    rw [Nat.zero_add] at e2
    rw [e2]
    congr 1; omega
  have hz1 : (List.range' 0 (lineNo s p.start)).filterMap (pieceAt s p) = [] := by
    rw [List.filterMap_eq_nil_iff]
    intro i hi
    rw [List.mem_range'_1] at hi
    have := startOf_mono s (show i + 1 ≤ lineNo s p.start by omega)
    have := startOf_lineNo s p.start
    rw [pieceAt]
    rw [if_neg (by omega)]
  have hz2 : (List.range' (lineNo s p.stop + 1) ((lines s).length - (lineNo s p.stop + 1))).filterMap (pieceAt s p) = [] := by
    rw [List.filterMap_eq_nil_iff]
    intro i hi
    rw [List.mem_range'_1] at hi
    have := startOf_mono s (show lineNo s p.stop + 1 ≤ i by omega)
    have := lt_startOf_lineNo s p.stop (by omega)
    rw [pieceAt]
    rw [if_neg (by omega)]
  show (List.range (lines s).length).filterMap (pieceAt s p) = _
  rw [e, List.filterMap_append, List.filterMap_append, hz1, hz2]
  simp

/-- In line `i`, from its start. -/
theorem pieceAt_line {s : Text} {p : Piece} {i : Nat} (hi : p.start ≤ startOf s i) (he : p.stop ≤ len8 s)
    (hf : i ≤ lineNo s p.stop) :
    pieceAt s p i =
      if startOf s i < (if i = lineNo s p.stop then p.stop else startOf s (i + 1))
      then some ⟨startOf s i, if i = lineNo s p.stop then p.stop else startOf s (i + 1), p.tag⟩ else none := by
  have hy : min p.stop (startOf s (i + 1)) = if i = lineNo s p.stop then p.stop else startOf s (i + 1) := by
    split
    · rename_i h; subst h
      have := le_startOf_lineNo s p.stop he
      omega
    · have := startOf_mono s (show i + 1 ≤ lineNo s p.stop by omega)
      have := startOf_lineNo s p.stop
      omega
  rw [pieceAt]
  rw [hy, show max p.start (startOf s i) = startOf s i by omega]

/-! ## Pushing -/

theorem lineLoop_spec (cfg : Cfg) (p : Piece) (he : Bd cfg.source p.stop) (n line : Nat) (st : St) (E : List Piece)
    (hn : line + n = lineNo cfg.source p.stop + 1) (hn0 : 0 < n) (ha : p.start ≤ startOf cfg.source line)
    (hr : Reads cfg st.output E st.curr) (hq : st.curr.1 + 1 = line) (L : Nat)
    (hx : ∃ x, x ≤ startOf cfg.source line ∧ Bd cfg.source x ∧ st.curr = pos cfg.encoding cfg.source x) :
    ∃ st' dl' q', lineLoop cfg p.tag (lineNo cfg.source p.stop) p.stop n line (startOf cfg.source line) 0
        ⟨(L, st.curr.2), st.posOffset, st.output, st.token⟩ = some (st', dl') ∧
      Reads cfg st'.output (E ++ (List.range' line n).filterMap (pieceAt cfg.source p)) q' ∧
      st'.curr.2 = q'.2 ∧ st'.token = st.token ∧ q'.1 + dl' = lineNo cfg.source p.stop ∧
      st'.posOffset = startOf cfg.source (lineNo cfg.source p.stop) ∧
      (∃ x, x ≤ p.stop ∧ Bd cfg.source x ∧ q' = pos cfg.encoding cfg.source x) ∧
      (startOf cfg.source (lineNo cfg.source p.stop) = p.stop ∧ dl' = 1 ∨
        startOf cfg.source (lineNo cfg.source p.stop) < p.stop ∧ dl' = 0 ∧
          q' = pos cfg.encoding cfg.source (startOf cfg.source (lineNo cfg.source p.stop)) ∧
          ∃ F, (List.range' line n).filterMap (pieceAt cfg.source p) =
            F ++ [⟨startOf cfg.source (lineNo cfg.source p.stop), p.stop, p.tag⟩]) := by
  induction n generalizing line st E L with
  | zero => omega
  | succ n ih =>
    have hfl := lineNo_lt cfg.source p.stop
    have hstart := startOf_lineNo cfg.source p.stop
    have hline : line ≤ lineNo cfg.source p.stop := by omega
    have hpos := pos_startOf cfg.encoding cfg.source line (by omega)
    have hpa := pieceAt_line (s := cfg.source) (p := p) ha he.le hline
    rw [lineLoop, List.range'_succ, List.filterMap_cons, lineStart_eq]
    -- the token of a line that is written
    have hpush : ∀ nx, Bd cfg.source nx → startOf cfg.source line < nx →
        Reads cfg (st.output ++ [⟨0 + 1, 0, lenOf cfg (startOf cfg.source line) nx, p.tag⟩])
          (E ++ [⟨startOf cfg.source line, nx, p.tag⟩]) (line, 0) := by
      intro nx _ _
      have := reads_push hr ⟨startOf cfg.source line, nx, p.tag⟩ (bd_startOf ..) (0 + 1, 0)
      rw [hpos] at this
      apply this
      · exact ⟨by omega, by omega⟩
      · simp
    by_cases hl : line = lineNo cfg.source p.stop
    · have hn' : n = 0 := by omega
      subst hn'
      rw [if_pos hl] at hpa ⊢
      rw [hpa]
      simp only [lineLoop, List.range'_zero, List.filterMap_nil]
      by_cases hlt : startOf cfg.source line < p.stop
      · have hel := encodeLength_bd cfg (bd_startOf cfg.source line) he (Nat.le_of_lt hlt)
        rw [if_pos hlt, if_pos hlt, hel.1]
        refine ⟨_, _, (line, 0), rfl, hpush _ he hlt, rfl, rfl, by omega, by simp only; rw [hl], ?_, ?_⟩
        · exact ⟨startOf cfg.source line, by omega, bd_startOf .., hpos.symm⟩
        · right
          rw [← hl]
          exact ⟨hlt, rfl, hpos.symm, [], rfl⟩
      · rw [if_neg hlt, if_neg hlt]
        refine ⟨_, _, st.curr, rfl, by simpa using hr, rfl, rfl, by omega, by simp only; rw [hl], ?_, ?_⟩
        · obtain ⟨x, h1, h2, h3⟩ := hx
          rw [hl] at h1
          exact ⟨x, by omega, h2, h3⟩
        · left
          rw [← hl] at hstart ⊢
          exact ⟨by omega, rfl⟩
    · rw [if_neg hl] at hpa ⊢
      have hlt := startOf_lt_succ cfg.source line (by omega)
      have hel := encodeLength_bd cfg (bd_startOf cfg.source line) (bd_startOf cfg.source (line + 1)) (Nat.le_of_lt hlt)
      rw [hpa, if_pos hlt, if_pos hlt, hel.1]
      simp only [Option.bind_eq_bind, Option.bind_some]
      obtain ⟨st', dl', q', h1, h2, h3, h4, h5, h6, h7, h8⟩ := ih (line + 1)
        ⟨(line, 0), startOf cfg.source line, st.output ++ [⟨0 + 1, 0, lenOf cfg (startOf cfg.source line) (startOf cfg.source (line + 1)), p.tag⟩], st.token⟩
        (E ++ [⟨startOf cfg.source line, startOf cfg.source (line + 1), p.tag⟩]) (by omega) (by omega) (by omega)
        (hpush _ (bd_startOf ..) hlt) rfl L ⟨startOf cfg.source line, by omega, bd_startOf .., hpos.symm⟩
      refine ⟨st', dl', q', h1, ?_, h3, h4, h5, h6, h7, ?_⟩
      · rw [List.append_assoc] at h2; exact h2
      · rcases h8 with h8 | ⟨h8, h9, h10, F, hF⟩
        · exact Or.inl h8
        · refine Or.inr ⟨h8, h9, h10, ⟨startOf cfg.source line, startOf cfg.source (line + 1), p.tag⟩ :: F, ?_⟩
          rw [hF]; rfl

/-- Between two nodes, at offset `b`; `ll` is where the last leaf pushed starts, `E` what has been written. -/
structure Inv (cfg : Cfg) (st : St) (b ll : Nat) (E : List Piece) : Prop where
  reads : Reads cfg st.output E st.curr
  bd : Bd cfg.source b
  le : ll ≤ b
  at' : ∃ x, x ≤ b ∧ Bd cfg.source x ∧ st.curr = pos cfg.encoding cfg.source x
  off : st.posOffset ≤ b
  line : cfg.allowMultiline = false → lineNo cfg.source b = st.curr.1 ∨
    b = startOf cfg.source (st.curr.1 + 1) ∧ lineNo cfg.source b = st.curr.1 + 1
  last : b = 0 ∨ st.posOffset = b ∨ ∃ x tag F, E = F ++ [⟨x, b, tag⟩] ∧ st.posOffset = x ∧ ll ≤ x ∧ x < b ∧
    Bd cfg.source x ∧ st.curr = pos cfg.encoding cfg.source x ∧
    (cfg.allowMultiline = false → lineNo cfg.source b = lineNo cfg.source x)
  pieces : ∀ p ∈ E, Bd cfg.source p.start ∧ Bd cfg.source p.stop ∧ p.start < p.stop

/-- What a leaf becomes. -/
def piecesOf (cfg : Cfg) (p : Piece) : List Piece := if cfg.allowMultiline then [p] else cut cfg.source p

theorem cut_pieces {s : Text} {p q : Piece} (hx : Bd s p.start) (hy : Bd s p.stop) (hq : q ∈ cut s p) :
    Bd s q.start ∧ Bd s q.stop ∧ q.start < q.stop := by
  simp only [cut, List.mem_filterMap] at hq
  obtain ⟨i, _, hi⟩ := hq
  split at hi
  · rename_i hlt
    injection hi with hi; subst hi
    refine ⟨?_, ?_, hlt⟩
    · simp only
      rcases Nat.le_total p.start (startOf s i) with h | h
      · rw [Nat.max_eq_right h]; exact bd_startOf ..
      · rw [Nat.max_eq_left h]; exact hx
    · simp only
      rcases Nat.le_total p.stop (startOf s (i + 1)) with h | h
      · rw [Nat.min_eq_left h]; exact hy
      · rw [Nat.min_eq_right h]; exact bd_startOf ..
  · cases hi

theorem delta_curr {cfg : Cfg} {st : St} {b ll : Nat} {E : List Piece} (h : Inv cfg st b ll E) :
    ∃ d, delta st.curr (pos cfg.encoding cfg.source b) = some d ∧
      (d.1 = (pos cfg.encoding cfg.source b).1 - st.curr.1 ∧ st.curr.1 ≤ (pos cfg.encoding cfg.source b).1) ∧
      (if d.1 = 0 then st.curr.2 + d.2 = (pos cfg.encoding cfg.source b).2
        else d.2 = (pos cfg.encoding cfg.source b).2) := by
  apply delta_eq
  obtain ⟨x, hx, hb, e⟩ := h.at'
  rw [e]
  by_cases hxb : x = b
  · subst hxb; right; exact ⟨rfl, Nat.le_refl _⟩
  · have := pos_mono cfg.encoding hb h.bd (by omega)
    rw [(toLsp_eq cfg.encoding hb).2, (toLsp_eq cfg.encoding h.bd).2]
    omega

theorem push_leaf {cfg : Cfg} {st : St} {b ll e : Nat} {E : List Piece} (h : Inv cfg st b ll E) (tag : Tag)
    (he : Bd cfg.source e) (hlt : b < e) :
    ∃ st', push cfg ⟨tag, b, e⟩ st = some st' ∧ Inv cfg st' e b (E ++ piecesOf cfg ⟨b, e, tag⟩) ∧
      st'.token = st.token := by
  obtain ⟨d, hd, hd1, hd2⟩ := delta_curr h
  have hle := he.le
  have hpb := toLsp_eq cfg.encoding h.bd
  have hread := reads_push h.reads ⟨b, e, tag⟩ h.bd d hd1 hd2
  rw [push, if_neg (by have := h.off; simp only; omega)]
  simp only
  rw [show min e (len8 cfg.source) = e by omega, if_neg (by omega), hpb.1]
  simp only [Option.bind_eq_bind, Option.bind_some]
  rw [hd]
  simp only [Option.bind_some]
  cases hm : cfg.allowMultiline with
  | true =>
    simp only [if_true]
    rw [(encodeLength_bd cfg h.bd he (by omega)).1]
    refine ⟨_, rfl, ?_, rfl⟩
    rw [piecesOf, hm, if_pos rfl]
    refine ⟨hread, he, by omega, ⟨b, by omega, h.bd, rfl⟩, by simp only; omega, fun hc => (by rw [hm] at hc; cases hc), ?_, ?_⟩
    · right; right
      exact ⟨b, tag, E, rfl, rfl, Nat.le_refl _, hlt, h.bd, rfl, fun hc => (by rw [hm] at hc; cases hc)⟩
    · intro p hp
      rcases List.mem_append.mp hp with hp | hp
      · exact h.pieces p hp
      · rw [List.mem_singleton.mp hp]; exact ⟨h.bd, he, hlt⟩
  | false =>
    simp only [Bool.false_eq_true, if_false]
    rw [byteToLine_eq _ _ hle, lineStart_eq, Option.getD_some]
    rw [piecesOf, hm, if_neg (by simp)]
    have hpieces : ∀ p ∈ E ++ cut cfg.source ⟨b, e, tag⟩, Bd cfg.source p.start ∧ Bd cfg.source p.stop ∧ p.start < p.stop := by
      intro p hp
      rcases List.mem_append.mp hp with hp | hp
      · exact h.pieces p hp
      · exact cut_pieces (p := ⟨b, e, tag⟩) h.bd he hp
    have hmono := lineNo_mono cfg.source (Nat.le_of_lt hlt)
    have hse := startOf_lineNo cfg.source e
    have hle' := le_startOf_lineNo cfg.source e hle
    rw [cut_eq _ _ (by simp only; omega)] at hpieces ⊢
    simp only at hpieces ⊢
    -- the lines after the first
    have hrest : ∀ (line : Nat) (st1 : St) (E1 : List Piece), line ≤ lineNo cfg.source e → b ≤ startOf cfg.source line →
        Reads cfg st1.output E1 st1.curr → st1.curr.1 + 1 = line →
        (∃ x, x ≤ startOf cfg.source line ∧ Bd cfg.source x ∧ st1.curr = pos cfg.encoding cfg.source x) →
        E ++ (List.range' (lineNo cfg.source b) (lineNo cfg.source e + 1 - lineNo cfg.source b)).filterMap
          (pieceAt cfg.source ⟨b, e, tag⟩) =
          E1 ++ (List.range' line (lineNo cfg.source e - st1.curr.1)).filterMap (pieceAt cfg.source ⟨b, e, tag⟩) →
        ∃ st', ((lineLoop cfg tag (lineNo cfg.source e) e (lineNo cfg.source e - st1.curr.1) (st1.curr.1 + 1)
            (startOf cfg.source line) 0 st1).bind fun r =>
              (sub (lineNo cfg.source e) r.2).bind fun line =>
                some (⟨(line, r.1.curr.2), r.1.posOffset, r.1.output, r.1.token⟩ : St)) = some st' ∧
          Inv cfg st' e b (E ++ (List.range' (lineNo cfg.source b) (lineNo cfg.source e + 1 - lineNo cfg.source b)).filterMap
            (pieceAt cfg.source ⟨b, e, tag⟩)) ∧ st'.token = st1.token := by
      intro line st1 E1 h1 h2 h3 h4 h5 h6
      obtain ⟨st', dl', q', g1, g2, g3, g4, g5, g6, g7, g8⟩ :=
        lineLoop_spec cfg ⟨b, e, tag⟩ he (lineNo cfg.source e - st1.curr.1) line st1 E1 (by simp only; omega) (by omega) h2 h3 h4
          st1.curr.1 h5
      simp only at g1 g5 g6 g7 g8
      rw [show (⟨(st1.curr.1, st1.curr.2), st1.posOffset, st1.output, st1.token⟩ : St) = st1 from rfl, ← h4] at g1
      rw [← h4] at h6 g2 g8 ⊢
      rw [g1]
      simp only [Option.bind_some, sub]
      rw [if_pos (by omega)]
      refine ⟨_, rfl, ?_, g4⟩
      have hq' : (lineNo cfg.source e - dl', st'.curr.2) = q' := by
        rw [g3, show lineNo cfg.source e - dl' = q'.1 by omega]
      refine ⟨?_, he, by omega, ?_, ?_, ?_, ?_, hpieces⟩
      · simp only; rw [hq', h6]; exact g2
      · simp only; rw [hq']; exact g7
      · simp only; rw [g6]; exact hse
      · intro _
        simp only
        rcases g8 with ⟨g8, g9⟩ | ⟨g8, g9, _⟩
        · right
          rw [g9, show lineNo cfg.source e - 1 + 1 = lineNo cfg.source e by omega]
          exact ⟨g8.symm, rfl⟩
        · left; rw [g9]; rfl
      · simp only
        rcases g8 with ⟨g8, g9⟩ | ⟨g8, g9, g10, F, hF⟩
        · right; left; rw [g6, g8]
        · right; right
          refine ⟨startOf cfg.source (lineNo cfg.source e), tag, E1 ++ F, ?_, g6, ?_, g8, bd_startOf .., ?_, fun _ => ?_⟩
          · rw [h6, hF, List.append_assoc]
          · exact Nat.le_trans h2 (startOf_mono _ h1)
          · rw [hq', g10]
          · rw [lineNo_startOf _ (lineNo_lt ..)]
    rcases h.line hm with hA | ⟨hB1, hB2⟩
    · -- in the line of the token before
      have hmin : min e (startOf cfg.source (st.curr.1 + 1)) = if lineNo cfg.source e = lineNo cfg.source b then e
          else startOf cfg.source (lineNo cfg.source b + 1) := by
        rw [← hA]
        split
        · rename_i hc; rw [hc] at hle'; omega
        · have := startOf_mono cfg.source (show lineNo cfg.source b + 1 ≤ lineNo cfg.source e by omega)
          omega
      have hbd : Bd cfg.source (min e (startOf cfg.source (st.curr.1 + 1))) := by
        rw [hmin]; split
        · exact he
        · exact bd_startOf ..
      have hblt : b < min e (startOf cfg.source (st.curr.1 + 1)) := by
        rw [hmin]; split
        · exact hlt
        · apply lt_startOf_lineNo
          have := lineNo_lt cfg.source e
          omega
      have hel := encodeLength_bd cfg h.bd hbd (by omega)
      rw [hel.1]
      simp only [Option.bind_some]
      have hne : lenOf cfg b (min e (startOf cfg.source (st.curr.1 + 1))) ≠ 0 := fun hc => by
        have := hel.2.mp hc; omega
      rw [if_pos hne]
      have hfirst : pieceAt cfg.source ⟨b, e, tag⟩ (lineNo cfg.source b) =
          some ⟨b, min e (startOf cfg.source (st.curr.1 + 1)), tag⟩ := by
        have := startOf_lineNo cfg.source b
        rw [pieceAt]
        simp only
        rw [show max b (startOf cfg.source (lineNo cfg.source b)) = b by omega, hA, if_pos hblt]
      have hread1 := reads_push h.reads ⟨b, min e (startOf cfg.source (st.curr.1 + 1)), tag⟩ h.bd d hd1 hd2
      have hsplit : (List.range' (lineNo cfg.source b) (lineNo cfg.source e + 1 - lineNo cfg.source b)).filterMap
          (pieceAt cfg.source ⟨b, e, tag⟩) = ⟨b, min e (startOf cfg.source (st.curr.1 + 1)), tag⟩ ::
            (List.range' (lineNo cfg.source b + 1) (lineNo cfg.source e - lineNo cfg.source b)).filterMap
              (pieceAt cfg.source ⟨b, e, tag⟩) := by
        rw [show lineNo cfg.source e + 1 - lineNo cfg.source b = (lineNo cfg.source e - lineNo cfg.source b) + 1 by omega,
          List.range'_succ, List.filterMap_cons, hfirst]
      by_cases hfin : lineNo cfg.source e ≤ lineNo cfg.source b
      · have heq : lineNo cfg.source e = lineNo cfg.source b := by omega
        have hmine : min e (startOf cfg.source (st.curr.1 + 1)) = e := by rw [hmin, if_pos heq]
        rw [if_pos (by rw [hpb.2]; exact hfin)]
        refine ⟨_, rfl, ?_, rfl⟩
        rw [hsplit, heq, Nat.sub_self, List.range'_zero, List.filterMap_nil, hmine] 
        rw [hmine] at hread1
        refine ⟨hread1, he, by omega, ⟨b, by omega, h.bd, rfl⟩, by simp only; omega, ?_, ?_, ?_⟩
        · intro _; left; simp only; rw [hpb.2, heq]
        · right; right
          exact ⟨b, tag, E, rfl, rfl, Nat.le_refl _, hlt, h.bd, rfl, fun _ => heq⟩
        · rw [hsplit, heq, Nat.sub_self, List.range'_zero, List.filterMap_nil, hmine] at hpieces
          exact hpieces
      · rw [if_neg (by rw [hpb.2]; omega)]
        have hst := startOf_mono cfg.source (show lineNo cfg.source b ≤ lineNo cfg.source b + 1 by omega)
        have hb1 := lt_startOf_lineNo cfg.source b (by have := lineNo_lt cfg.source e; omega)
        have := hrest (lineNo cfg.source b + 1)
          ⟨pos cfg.encoding cfg.source b, b, st.output ++ [⟨d.1, d.2, lenOf cfg b (min e (startOf cfg.source (st.curr.1 + 1))), tag⟩], st.token⟩
          (E ++ [⟨b, min e (startOf cfg.source (st.curr.1 + 1)), tag⟩]) (by omega) (by omega) hread1
          (by simp only; rw [hpb.2]) ⟨b, by omega, h.bd, rfl⟩
          (by simp only; rw [hpb.2, hsplit, List.append_assoc]; rfl)
        rw [hA] at this ⊢
        exact this
    · -- at the start of the next line
      rw [← hB1, show min e b = b by omega, (encodeLength_bd cfg h.bd h.bd (Nat.le_refl _)).1]
      have hz := (encodeLength_bd cfg h.bd h.bd (Nat.le_refl _)).2.mpr rfl
      simp only [Option.bind_some]
      rw [hz, if_neg (show ¬ ((0 : Nat) ≠ 0) by simp)]
      rw [if_neg (by simp only; omega)]
      have := hrest (lineNo cfg.source b) ⟨st.curr, b, st.output, st.token⟩ E (by omega) (by rw [hB2, ← hB1]; omega)
        h.reads (by simp only; omega) (by rw [hB2, ← hB1]; exact h.at')
        (by simp only; rw [show lineNo cfg.source e + 1 - lineNo cfg.source b = lineNo cfg.source e - st.curr.1 by omega])
      rw [show startOf cfg.source (lineNo cfg.source b) = b by rw [hB2, ← hB1]] at this
      exact this

/-- Pushing again what has just been written, or more: nothing, or the last piece with another tag. -/
theorem push_again {cfg : Cfg} {st : St} {b ll a : Nat} {E : List Piece} (h : Inv cfg st b ll E) (tag : Tag)
    (ha : a ≤ ll) (hlt : a < b) :
    ∃ st' E', push cfg ⟨tag, a, b⟩ st = some st' ∧ Inv cfg st' b ll E' ∧ st'.token = st.token ∧
      ∀ D, Stutter E D → Stutter E' D := by
  by_cases hoff : st.posOffset > a
  · exact ⟨st, E, by rw [push, if_pos hoff], h, rfl, fun _ h => h⟩
  · rcases h.last with h0 | h0 | ⟨x, tag', F, hE, hox, hllx, hxb, hbx, hcur, hline⟩
    · omega
    · omega
    · have hax : a = x := by omega
      subst hax
      have hle := h.bd.le
      have hpb := toLsp_eq cfg.encoding hbx
      obtain ⟨d, hd, hd1, hd2⟩ := delta_eq (a := st.curr) (b := pos cfg.encoding cfg.source a)
        (Or.inr ⟨by rw [hcur], by rw [hcur]; exact Nat.le_refl _⟩)
      have hread := reads_push h.reads ⟨a, b, tag⟩ hbx d hd1 hd2
      have hel := encodeLength_bd cfg hbx h.bd (by omega)
      have hst : ∀ D, Stutter E D → Stutter (E ++ [⟨a, b, tag⟩]) D := by
        intro D hs
        rw [hE] at hs ⊢
        exact Stutter.again ⟨a, b, tag'⟩ tag hs
      have hinv : Inv cfg ⟨pos cfg.encoding cfg.source a, a,
          st.output ++ [⟨d.1, d.2, lenOf cfg a b, tag⟩], st.token⟩ b ll (E ++ [⟨a, b, tag⟩]) := by
        refine ⟨hread, h.bd, h.le, ⟨a, by omega, hbx, rfl⟩, by simp only; omega, ?_, ?_, ?_⟩
        · intro hm
          have := h.line hm
          rw [hcur] at this
          exact this
        · right; right
          exact ⟨a, tag, E, rfl, rfl, hllx, hxb, hbx, rfl, hline⟩
        · intro p hp
          rcases List.mem_append.mp hp with hp | hp
          · exact h.pieces p hp
          · rw [List.mem_singleton.mp hp]; exact ⟨hbx, h.bd, hxb⟩
      refine ⟨_, _, ?_, hinv, rfl, hst⟩
      rw [push, if_neg hoff]
      simp only
      rw [show min b (len8 cfg.source) = b by omega, if_neg (by omega), hpb.1]
      simp only [Option.bind_eq_bind, Option.bind_some]
      rw [hd]
      simp only [Option.bind_some]
      cases hm : cfg.allowMultiline with
      | true =>
        simp only [if_true]
        rw [hel.1]
        rfl
      | false =>
        simp only [Bool.false_eq_true, if_false]
        have hl := hline hm
        have hcl : st.curr.1 = lineNo cfg.source b := by rw [hcur, hpb.2, hl]
        have := le_startOf_lineNo cfg.source b hle
        rw [byteToLine_eq _ _ hle, lineStart_eq, Option.getD_some, hcl,
          show min b (startOf cfg.source (lineNo cfg.source b + 1)) = b by omega, hel.1]
        have hne : lenOf cfg a b ≠ 0 := fun hc => by have := hel.2.mp hc; omega
        simp only [Option.bind_some]
        rw [if_pos hne, if_pos]
        rw [hpb.2, hl]
        exact Nat.le_refl _

theorem inv_token {cfg : Cfg} {st : St} {b ll : Nat} {E : List Piece} (h : Inv cfg st b ll E) (t : Option Token) :
    Inv cfg ⟨st.curr, st.posOffset, st.output, t⟩ b ll E :=
  ⟨h.reads, h.bd, h.le, h.at', h.off, h.line, h.last, h.pieces⟩

/-! ## Trees -/

/-- The token of the parent, at offset `b`: it starts here, or not after the last leaf; it ends at `stop`. -/
def Parent (t : Option Token) (b ll stop : Nat) : Prop :=
  ∀ p, t = some p → (p.start = b ∨ p.start ≤ ll) ∧ p.stop = stop

theorem Stutter.append {E D : List Piece} (h : Stutter E D) (L : List Piece) : Stutter (E ++ L) (D ++ L) := by
  induction L generalizing E D with
  | nil => simpa using h
  | cons p L ih =>
    have := ih (Stutter.next p h)
    simpa using this

theorem pushStart_spec {cfg : Cfg} {st : St} {b ll stop : Nat} {E : List Piece} (h : Inv cfg st b ll E)
    (hp : Parent st.token b ll stop) (hs : b ≤ stop) :
    ∃ st' E', pushStart cfg b st = some st' ∧ Inv cfg st' b ll E' ∧ Parent st'.token b ll stop ∧
      ∀ D, Stutter E D → Stutter E' D := by
  rw [pushStart]
  cases ht : st.token with
  | none => exact ⟨st, E, rfl, h, hp, fun _ h => h⟩
  | some t =>
    simp only
    obtain ⟨h1, h2⟩ := hp t ht
    split
    · rename_i hc
      rw [show min t.stop b = b by omega]
      obtain ⟨st', E', g1, g2, g3, g4⟩ := push_again (inv_token h (some ⟨t.tag, b, t.stop⟩)) t.tag
        (a := t.start) (by omega) hc.2
      refine ⟨st', E', g1, g2, ?_, g4⟩
      rw [g3]
      intro p e; injection e with e; subst e
      exact ⟨Or.inl rfl, h2⟩
    · exact ⟨st, E, rfl, h, hp, fun _ h => h⟩

mutual
theorem tree_spec (cfg : Cfg) (node : Node) (b ll stop : Nat) (st : St) (E D : List Piece) (pre post : Text)
    (hs : cfg.source = pre ++ node.text ++ post) (hb : b = len8 pre) (h : Inv cfg st b ll E)
    (hp : Parent st.token b ll stop) (hstop : b + len8 node.text ≤ stop) (hD : Stutter E D) :
    ∃ st' ll' E', tokenizeTree cfg node b st = some st' ∧ Inv cfg st' (b + len8 node.text) ll' E' ∧
      Parent st'.token (b + len8 node.text) ll' stop ∧ ll ≤ ll' ∧ (b + len8 node.text ≠ b → b ≤ ll') ∧
      Stutter E' (D ++ (leaves node b).flatMap (piecesOf cfg)) := by
  obtain ⟨st1, E1, g1, g2, g3, g4⟩ := pushStart_spec h hp (by omega)
  have hbd : Bd cfg.source (b + len8 node.text) := ⟨pre ++ node.text, post, hs, by rw [len8_append, hb]⟩
  cases node with
  | leaf text tag =>
    simp only [Node.text] at *
    simp only [tokenizeTree, g1, Option.bind_eq_bind, Option.bind_some, pushEnd, leaves]
    by_cases ht : text = []
    · subst ht
      rw [len8_nil, Nat.add_zero] at *
      rw [if_neg (by omega), if_pos rfl]
      refine ⟨st1, ll, E1, rfl, g2, g3, Nat.le_refl _, fun h => (h rfl).elim, ?_⟩
      simpa using g4 D hD
    · have hpos := len8_pos ht
      rw [if_pos (by omega), if_neg ht]
      obtain ⟨st', k1, k2, k3⟩ := push_leaf (inv_token g2 (st1.token.map fun p => ⟨p.tag, b + len8 text, p.stop⟩)) tag
        hbd (by omega)
      refine ⟨st', b, _, k1, k2, ?_, h.le, fun _ => Nat.le_refl _, ?_⟩
      · rw [k3]
        intro p e
        obtain ⟨q, hq, rfl⟩ := Option.map_eq_some_iff.mp e
        exact ⟨Or.inl rfl, (g3 q hq).2⟩
      · simp only [List.flatMap_cons, List.flatMap_nil, List.append_nil]
        exact (g4 D hD).append _
  | inner tag cs =>
    simp only [Node.text] at *
    simp only [tokenizeTree, g1, Option.bind_eq_bind, Option.bind_some, leaves]
    obtain ⟨st2, ll2, E2, k1, k2, k3, k4, k5, k6⟩ := forest_spec cfg cs b ll (b + len8 (forestText cs))
      ⟨st1.curr, st1.posOffset, st1.output, tag.map fun t => ⟨t, b, b + len8 (forestText cs)⟩⟩ E1 D pre post hs hb
      (inv_token g2 _)
      (by
        intro p e
        obtain ⟨t, _, rfl⟩ := Option.map_eq_some_iff.mp e
        exact ⟨Or.inl rfl, rfl⟩)
      (Nat.le_refl _) (g4 D hD)
    rw [k1]
    simp only [Option.bind_some]
    have hpar : Parent st1.token (b + len8 (forestText cs)) ll2 stop := by
      intro p e
      obtain ⟨h1, h2⟩ := g3 p e
      refine ⟨?_, h2⟩
      by_cases hz : b + len8 (forestText cs) = b
      · rw [hz]; omega
      · have := k5 hz; omega
    rw [pushEnd.eq_def]
    cases ht : st2.token with
    | none =>
      exact ⟨_, ll2, E2, rfl, inv_token k2 _, hpar, k4, k5, k6⟩
    | some t =>
      simp only
      obtain ⟨h1, h2⟩ := k3 t ht
      split
      · rename_i hlt
        obtain ⟨st3, E3, m1, m2, m3, m4⟩ := push_again
          (inv_token k2 (st1.token.map fun p => ⟨p.tag, t.stop, p.stop⟩)) t.tag (a := t.start) (by omega) (by omega)
        have et : (⟨t.tag, t.start, b + len8 (forestText cs)⟩ : Token) = t := by rw [← h2]
        rw [et] at m1
        refine ⟨st3, ll2, E3, m1, m2, ?_, k4, k5, m4 _ k6⟩
        rw [m3]
        intro p e
        obtain ⟨q, hq, rfl⟩ := Option.map_eq_some_iff.mp e
        exact ⟨Or.inl h2, (g3 q hq).2⟩
      · exact ⟨_, ll2, E2, rfl, inv_token k2 _, hpar, k4, k5, k6⟩
theorem forest_spec (cfg : Cfg) (cs : List Node) (b ll stop : Nat) (st : St) (E D : List Piece) (pre post : Text)
    (hs : cfg.source = pre ++ forestText cs ++ post) (hb : b = len8 pre) (h : Inv cfg st b ll E)
    (hp : Parent st.token b ll stop) (hstop : b + len8 (forestText cs) ≤ stop) (hD : Stutter E D) :
    ∃ st' ll' E', tokenizeForest cfg cs b st = some st' ∧ Inv cfg st' (b + len8 (forestText cs)) ll' E' ∧
      Parent st'.token (b + len8 (forestText cs)) ll' stop ∧ ll ≤ ll' ∧ (b + len8 (forestText cs) ≠ b → b ≤ ll') ∧
      Stutter E' (D ++ (forestLeaves cs b).flatMap (piecesOf cfg)) := by
  cases cs with
  | nil =>
    simp only [tokenizeForest, forestText, forestLeaves, len8_nil, Nat.add_zero]
    exact ⟨st, ll, E, rfl, h, hp, Nat.le_refl _, fun h => (h rfl).elim, by simpa using hD⟩
  | cons n ns =>
    simp only [forestText] at *
    rw [len8_append] at *
    obtain ⟨st1, ll1, E1, k1, k2, k3, k4, k5, k6⟩ := tree_spec cfg n b ll stop st E D pre (forestText ns ++ post)
      (by rw [hs]; simp) hb h hp (by omega) hD
    obtain ⟨st2, ll2, E2, m1, m2, m3, m4, m5, m6⟩ := forest_spec cfg ns (b + len8 n.text) ll1 stop st1 E1 _
      (pre ++ n.text) post (by rw [hs]; simp) (by rw [len8_append, hb]) k2 k3 (by omega) k6
    simp only [tokenizeForest, k1, Option.bind_eq_bind, Option.bind_some, m1]
    refine ⟨st2, ll2, E2, rfl, ?_, ?_, by omega, ?_, ?_⟩
    · rw [← Nat.add_assoc]; exact m2
    · rw [← Nat.add_assoc]; exact m3
    · intro hne
      by_cases hz : len8 n.text = 0
      · have := m5 (by omega); omega
      · have := k5 (by omega); omega
    · simp only [forestLeaves, List.flatMap_append]
      rw [← List.append_assoc]
      exact m6
end

theorem inv_new (cfg : Cfg) : Inv cfg St.new 0 0 [] := by
  have hp : pos cfg.encoding cfg.source 0 = (0, 0) :=
    pos_startOf cfg.encoding cfg.source 0 (List.length_pos_iff.mpr (lines_ne_nil _))
  have hb : Bd cfg.source 0 := ⟨[], cfg.source, rfl, rfl⟩
  refine ⟨⟨rfl, rfl⟩, hb, Nat.le_refl _, ⟨0, Nat.le_refl _, hb, hp.symm⟩, Nat.le_refl _, ?_, Or.inl rfl, ?_⟩
  · intro _
    left
    rw [← (toLsp_eq cfg.encoding hb).2, hp]; rfl
  · intro p hp; cases hp

end Tinymist.Tokens
