import Verif.Model.Clock
import Verif.Model.BuildScript
import Verif.Spec.Clock
import Verif.Lemmas.Clock
import Verif.Lemmas.RustNum
import Verif.Lemmas.Pages
/-! # C149: the date a document sees -/
namespace Tinymist.Clock
open Spec

/-! ## The calendar -/

/-- The dates are those of the calendar, for all days before and after 1970. -/
theorem calendar_right : Calendar civil := civil_calendar

/-- There is only one calendar. -/
theorem one_calendar {f : Int → Date} (hf : Calendar f) (n : Int) : f n = civil n :=
  calendar_unique hf civil_calendar n

example : civil 20773 = ⟨2026, 11, 16⟩ := by decide
example : civil (-1) = ⟨1969, 12, 31⟩ := by decide
example : civil 11016 = ⟨2000, 2, 29⟩ := by decide
example : civil 47540 = ⟨2100, 2, 28⟩ ∧ civil 47541 = ⟨2100, 3, 1⟩ := by decide

theorem day_unique {t n : Int} (h : dayOf t n) : t / 86400 = n := by
  obtain ⟨h1, h2⟩ := h
  omega

/-- Years far away are far away in days. -/
theorem year_of_days (n : Int) : 400 * ((n + 719468) / 146097) ≤ (civil n).year ∧
    (civil n).year ≤ 400 * ((n + 719468) / 146097) + 400 := by
  obtain ⟨e, c, q, r, doy, h, hc⟩ := parts_exist n
  obtain ⟨s, a1, a2, a3, a4, a5, a6, a7, a8, a9⟩ := h
  have he : (n + 719468) / 146097 = e := by omega
  rw [hc, he]
  unfold ofParts
  simp only []
  split <;> simp only [] <;> omega

/-! ## One question -/

theorem dateOf_near {zone : Int → Int} {T o : Int} (hd : -maxSeconds ≤ o * 3600 ∧ o * 3600 ≤ maxSeconds)
    (hy : -262143 ≤ (civil ((T + o * 3600) / 86400)).year ∧ (civil ((T + o * 3600) / 86400)).year ≤ 262142) :
    dateOf zone T (some o) = fromYmd (civil ((T + o * 3600) / 86400)) := by
  simp only [dateOf, tryHours, if_pos hd, addSeconds, if_pos hy]

theorem dateOf_far {zone : Int → Int} {T o : Int} (hd : -maxSeconds ≤ o * 3600 ∧ o * 3600 ≤ maxSeconds)
    (hy : ¬ (-262143 ≤ (civil ((T + o * 3600) / 86400)).year ∧ (civil ((T + o * 3600) / 86400)).year ≤ 262142)) :
    dateOf zone T (some o) = .panic := by
  simp only [dateOf, tryHours, if_pos hd, addSeconds, if_neg hy]

theorem dateOf_over {zone : Int → Int} {T o : Int} (hd : ¬ (-maxSeconds ≤ o * 3600 ∧ o * 3600 ≤ maxSeconds)) :
    dateOf zone T (some o) = .none := by
  simp only [dateOf, tryHours, if_neg hd]

theorem dateOf_right {zone : Int → Int} {T : Int} (hT : Sane T) (o : Option Int) :
    Right zone T o (dateOf zone T o) ∨ (dateOf zone T o = .panic ∧ FarAway zone T o) := by
  obtain ⟨t0, t1⟩ := hT
  cases o with
  | none =>
    refine .inl fun f n hf hn => ?_
    rw [one_calendar hf]
    simp only [meant] at hn
    simp only [dateOf, fromYmd, day_unique hn]
    constructor <;> intro h
    · rw [if_pos h]
    · rw [if_neg h]
  | some o =>
    by_cases hd : -maxSeconds ≤ o * 3600 ∧ o * 3600 ≤ maxSeconds
    · by_cases hy : -262143 ≤ (civil ((T + o * 3600) / 86400)).year ∧ (civil ((T + o * 3600) / 86400)).year ≤ 262142
      · refine .inl fun f n hf hn => ?_
        rw [one_calendar hf]
        simp only [meant] at hn
        rw [dateOf_near hd hy, day_unique hn]
        unfold fromYmd
        constructor <;> intro h
        · rw [if_pos h]
        · rw [if_neg h]
      · refine .inr ⟨?_, fun f n hf hn => ?_⟩
        · simp only [dateOf, tryHours, if_pos hd, addSeconds, if_neg hy]
        · rw [one_calendar hf]
          simp only [meant] at hn
          rw [day_unique hn] at hy
          omega
    · refine .inl fun f n hf hn => ?_
      rw [one_calendar hf]
      simp only [meant] at hn
      obtain ⟨n1, n2⟩ := hn
      have hyr := year_of_days n
      refine ⟨fun h => ?_, fun _ => dateOf_over hd⟩
      exfalso
      unfold maxSeconds at hd
      omega

/-- Questions with small offsets are answered rightly: no more than 200 million hours. -/
theorem dateOf_small {zone : Int → Int} {T : Int} (hT : Sane T) (o : Option Int)
    (ho : ∀ h, o = some h → -200000000 ≤ h ∧ h ≤ 200000000) : Right zone T o (dateOf zone T o) := by
  rcases dateOf_right (zone := zone) hT o with h | ⟨h, hf⟩
  · exact h
  · exfalso
    cases o with
    | none => 
      simp only [dateOf, fromYmd] at h
      split at h <;> exact nomatch h
    | some o =>
      obtain ⟨t0, t1⟩ := hT
      have := ho o rfl
      have hy := hf civil ((T + o * 3600) / 86400) civil_calendar ⟨by simp only [meant]; omega, by simp only [meant]; omega⟩
      have hyr := year_of_days ((T + o * 3600) / 86400)
      omega

/-- The compiler panics for offsets between about 2.3 billion and 2.5 trillion hours. -/
theorem big_offset_panics {zone : Int → Int} {T o : Int} (hT : Sane T) (h1 : 2300000000 ≤ o)
    (h2 : o ≤ 2562047788015) : dateOf zone T (some o) = .panic := by
  obtain ⟨t0, t1⟩ := hT
  have hyr := year_of_days ((T + o * 3600) / 86400)
  have hd : -maxSeconds ≤ o * 3600 ∧ o * 3600 ≤ maxSeconds := by unfold maxSeconds; omega
  simp only [dateOf, tryHours, if_pos hd, addSeconds]
  rw [if_neg (by omega)]

example : dateOf (fun _ => 0) 1794846000 (some 3000000000) = .panic := by decide

/-- A day more of the offset is the next day. -/
theorem day_later {zone : Int → Int} {T o : Int} {d : Date} (hT : Sane T)
    (h : dateOf zone T (some o) = .date d) (hy : d.year < 9999) :
    dateOf zone T (some (o + 24)) = .date (next d) := by
  obtain ⟨t0, t1⟩ := hT
  by_cases hd : -maxSeconds ≤ o * 3600 ∧ o * 3600 ≤ maxSeconds
  · by_cases hr : -262143 ≤ (civil ((T + o * 3600) / 86400)).year ∧ (civil ((T + o * 3600) / 86400)).year ≤ 262142
    · rw [dateOf_near hd hr] at h
      simp only [fromYmd] at h
      split at h
      · cases h
        rename_i hz
        have e : (T + (o + 24) * 3600) / 86400 = (T + o * 3600) / 86400 + 1 := by omega
        have hc := civil_next ((T + o * 3600) / 86400)
        have hb : (next (civil ((T + o * 3600) / 86400))).year ≤ (civil ((T + o * 3600) / 86400)).year + 1 ∧
            (civil ((T + o * 3600) / 86400)).year ≤ (next (civil ((T + o * 3600) / 86400))).year := by
          unfold next
          repeat' split
          all_goals (simp only []; omega)
        have hyr := year_of_days ((T + o * 3600) / 86400)
        rw [dateOf_near (by unfold maxSeconds; omega) (by rw [e, hc]; omega), e, hc]
        simp only [fromYmd]
        rw [if_pos (by omega)]
      · exact nomatch h
    · rw [dateOf_far hd hr] at h
      exact nomatch h
  · rw [dateOf_over hd] at h
    exact nomatch h

/-! ## Histories -/

theorem asked (zone : Int → Int) (es : List Event) (i f : Nat) (o : Option Int) (t : Int)
    (hi : (origins es [])[i]? = some f) :
    ∃ T, moment f (es ++ [.ask i o t]) [] = some T ∧
      (run zone (es ++ [.ask i o t])).2.getLast? = some (some (dateOf zone T o)) := by
  have inv := inv_run zone es
  rw [moment_snoc, run_snoc]
  simp only [List.getLast?_append, List.getLast?_singleton, Option.some_or, step, moment, hi, if_true]
  cases hM : moment f es [] with
  | some T =>
    refine ⟨T, rfl, ?_⟩
    rw [inv.used i f T hi hM]
    rfl
  | none =>
    refine ⟨t, rfl, ?_⟩
    rw [(inv.fresh i f hi hM).2]
    rfl

/-- The reading that counts is one of those of the history. -/
theorem moment_reading {f : Nat} {T : Int} (es : List Event) (os : List Nat) (h : moment f es os = some T) :
    ∃ e ∈ es, reading e = some T := by
  induction es generalizing os with
  | nil => exact nomatch h
  | cons x es ih =>
    have rest : ∀ os', moment f es os' = some T → ∃ e ∈ x :: es, reading e = some T := by
      intro os' h
      obtain ⟨e, he, hr⟩ := ih os' h
      exact ⟨e, List.mem_cons_of_mem _ he, hr⟩
    cases x with
    | snapshot => exact rest _ h
    | task i t =>
      simp only [moment] at h
      split at h
      · split at h
        · exact ⟨_, List.mem_cons_self, h⟩
        · exact rest _ h
      · exact rest _ h
    | ask i o t =>
      simp only [moment] at h
      split at h
      · exact ⟨_, List.mem_cons_self, h⟩
      · exact rest _ h

/-- Every question of every history is answered for the moment at which the date was first needed in
the worlds that come from the same snapshot.  The answer is the right one, except that the compiler
panics for some offsets. -/
theorem today_partial (zone : Int → Int) (es : List Event) (i f : Nat) (o : Option Int) (t : Int)
    (hs : ∀ e ∈ es ++ [.ask i o t], ∀ t, reading e = some t → Sane t)
    (hi : (origins es [])[i]? = some f) :
    ∃ T a, moment f (es ++ [.ask i o t]) [] = some T ∧
      (run zone (es ++ [.ask i o t])).2.getLast? = some (some a) ∧
      (Right zone T o a ∨ (a = .panic ∧ FarAway zone T o)) := by
  obtain ⟨T, h1, h2⟩ := asked zone es i f o t hi
  obtain ⟨e, he, hr⟩ := moment_reading _ _ h1
  exact ⟨T, _, h1, h2, dateOf_right (hs e he T hr) o⟩

/-- Without an offset, and with small ones, the answer is right. -/
theorem today_small (zone : Int → Int) (es : List Event) (i f : Nat) (o : Option Int) (t : Int)
    (hs : ∀ e ∈ es ++ [.ask i o t], ∀ t, reading e = some t → Sane t)
    (ho : ∀ h, o = some h → -200000000 ≤ h ∧ h ≤ 200000000)
    (hi : (origins es [])[i]? = some f) :
    ∃ T a, moment f (es ++ [.ask i o t]) [] = some T ∧
      (run zone (es ++ [.ask i o t])).2.getLast? = some (some a) ∧ Right zone T o a := by
  obtain ⟨T, h1, h2⟩ := asked zone es i f o t hi
  obtain ⟨e, he, hr⟩ := moment_reading _ _ h1
  exact ⟨T, _, h1, h2, dateOf_small (hs e he T hr) o ho⟩

/-- The moment does not change any more. -/
theorem moment_stays {f : Nat} {T : Int} (es es' : List Event) (h : moment f es [] = some T) :
    moment f (es ++ es') [] = some T := by
  induction es' using Util.reverseInd with
  | nil => simpa using h
  | append_singleton es' e ih => rw [← List.append_assoc, moment_snoc, ih, Option.some_or]

theorem origin_stays {i f : Nat} (es : List Event) (os : List Nat) (h : os[i]? = some f) :
    (origins es os)[i]? = some f := by
  have hlt : i < os.length := (List.getElem?_eq_some_iff.1 h).1
  induction es generalizing os with
  | nil => exact h
  | cons x es ih =>
    have app : ∀ k, (origins es (os ++ [k]))[i]? = some f := fun k =>
      ih (os ++ [k]) (by rw [List.getElem?_append_left hlt]; exact h) (by simp; omega)
    cases x with
    | snapshot => exact app _
    | task j t =>
      simp only [origins]
      split
      · exact app _
      · exact ih os h hlt
    | ask j o t => exact ih os h hlt

/-- Within the worlds that come from one snapshot, the same question always has the same answer,
whatever happens in between and whatever the clock does. -/
theorem same_answer (zone : Int → Int) (es es' : List Event) (i j f : Nat) (o : Option Int) (t t' : Int)
    (hi : (origins es [])[i]? = some f) (hj : (origins (es ++ [.ask i o t] ++ es') [])[j]? = some f) :
    (run zone (es ++ [.ask i o t])).2.getLast? =
      (run zone (es ++ [.ask i o t] ++ es' ++ [.ask j o t'])).2.getLast? := by
  obtain ⟨T, h1, h2⟩ := asked zone es i f o t hi
  obtain ⟨T', h1', h2'⟩ := asked zone (es ++ [.ask i o t] ++ es') j f o t' hj
  have := moment_stays _ (es' ++ [.ask j o t']) h1
  rw [← List.append_assoc, h1'] at this
  cases this
  rw [h2, h2']

/-- A new snapshot sees the clock anew. -/
theorem new_snapshot (zone : Int → Int) (es : List Event) (o : Option Int) (t : Int) :
    moment (origins es []).length (es ++ [.snapshot] ++ [.ask (origins es []).length o t]) [] = some t := by
  have inv := inv_run zone (es ++ [.snapshot])
  have inv0 := inv_run zone es
  have hn : moment (origins es []).length (es ++ [.snapshot]) [] = none := by
    rw [moment_snoc]
    cases h : moment (origins es []).length es [] with
    | none => rfl
    | some T => exact absurd (inv0.old _ _ h) (Nat.lt_irrefl _)
  rw [moment_snoc, hn, origins_snoc]
  simp [origins, moment]

/-- A derived world belongs to the snapshot of the world it is derived from. -/
theorem derived_same (es : List Event) (i f : Nat) (t : Int) (hi : (origins es [])[i]? = some f) :
    (origins (es ++ [.task i t]) [])[(origins es []).length]? = some f := by
  rw [origins_snoc]
  simp [origins, hi]

-- A compilation that runs over midnight: all of its questions are answered for the day before.
example :
    (run (fun _ => 3600) [.snapshot, .ask 0 none 1794869999, .task 0 1794870500, .ask 1 none 1794870600,
      .snapshot, .ask 2 none 1794870700, .ask 0 (some 2) 1794870800]).2 =
    [none, some (.date ⟨2026, 11, 16⟩), none, some (.date ⟨2026, 11, 16⟩), none,
      some (.date ⟨2026, 11, 17⟩), some (.date ⟨2026, 11, 17⟩)] := by decide

example : (origins [.snapshot, .ask 0 none 1794869999, .task 0 1794870500] [])[1]? = some 0 := by decide

/-! ## Without a system clock -/

/-- Offsets into the past are ignored. -/
theorem plain_back_ignored (now o : Int) (ho : o < 0) : todayPlain now (some o) = now := by
  simp only [todayPlain, Option.bind_some]
  split
  · have : asU64 (o * 3600) = o * 3600 + 18446744073709551616 := if_pos (by omega)
    rw [if_neg (by omega)]
    rfl
  · rfl

/-- Offsets into the future are followed up to the end of the year 9999, after which they are
ignored. -/
theorem plain_forward (now o : Int) (h0 : 0 ≤ now) (ho : 0 ≤ o) :
    todayPlain now (some o) = if now + o * 3600 ≤ 253402300799 then now + o * 3600 else now := by
  have e : asU64 (o * 3600) = o * 3600 := if_neg (by omega)
  simp only [todayPlain, Option.bind_some, utcMin, utcMax, e]
  by_cases h : now + o * 3600 ≤ 253402300799
  · rw [if_pos h, if_pos (by omega), if_pos (by omega), if_pos (by omega)]
    rfl
  · rw [if_neg h]
    split
    · split
      · rw [if_neg (by omega)]
        rfl
      · rfl
    · rfl

/-- Without an offset it is UTC, not local time. -/
theorem plain_utc (now : Int) : todayPlain now none = now := rfl

/-! ## The creation date of a PDF -/

/-- The date and time written for an instant name that instant. -/
theorem stamp_names (t : Int) : Names (toTypstTime t) t := by
  unfold toTypstTime
  refine ⟨by simp only []; omega, by simp only []; omega, by simp only []; omega, by simp only []; omega,
    by simp only []; omega, by simp only []; omega, t / 86400, fun f hf => one_calendar hf _, ?_⟩
  simp only []
  omega

/-- Later days have later dates. -/
theorem civil_lt (n : Int) (k : Nat) :
    (civil n).year * 372 + (civil n).month * 31 + (civil n).day + k ≤
      (civil (n + k)).year * 372 + (civil (n + k)).month * 31 + (civil (n + k)).day := by
  induction k with
  | zero => simp
  | succ k ih =>
    rw [show n + ((k + 1 : Nat) : Int) = n + k + 1 by omega, civil_next]
    obtain ⟨v1, v2, v3, v4⟩ := civil_valid (n + k)
    have : days (civil (n + k)).year (civil (n + k)).month ≤ 31 := by
      unfold days
      repeat' split
      all_goals omega
    unfold next
    repeat' split
    all_goals (simp only []; omega)

/-- No two days have the same date. -/
theorem civil_inj {n n' : Int} (h : civil n = civil n') : n = n' := by
  rcases Int.lt_trichotomy n n' with hlt | heq | hgt
  · have := civil_lt n (n' - n).toNat
    rw [show n + ((n' - n).toNat : Int) = n' by omega, h] at this
    omega
  · exact heq
  · have := civil_lt n' (n - n').toNat
    rw [show n' + ((n - n').toNat : Int) = n by omega, h] at this
    omega

/-- No two instants have the same stamp. -/
theorem stamp_inj {s : Stamp} {t t' : Int} (h : Names s t) (h' : Names s t') : t = t' := by
  obtain ⟨_, _, _, _, _, _, n, hn, e⟩ := h
  obtain ⟨_, _, _, _, _, _, n', hn', e'⟩ := h'
  have := civil_inj ((hn civil civil_calendar).trans (hn' civil civil_calendar).symm)
  omega

/-- A timestamp that is set is the creation date; one that is not in the years -9999 to 9999 is an
error. -/
theorem pdf_set (ts t : Int) :
    (-377705116800 ≤ ts ∧ ts ≤ 253402300799 → ∃ s, exportPdf none (some ts) t = .stamped s ∧ Names s ts) ∧
    (¬ (-377705116800 ≤ ts ∧ ts ≤ 253402300799) → exportPdf none (some ts) t = .failed) := by
  constructor <;> intro h
  · refine ⟨toTypstTime ts, ?_, stamp_names ts⟩
    have e : toUtcDateTime ts = some ts := if_pos h
    simp only [exportPdf, e]
  · have e : toUtcDateTime ts = none := if_neg h
    simp only [exportPdf, e]

/-- The bounds are those of the years with at most four digits. -/
theorem pdf_years (ts : Int) :
    (-377705116800 ≤ ts ∧ ts ≤ 253402300799) ↔
      -9999 ≤ (civil (ts / 86400)).year ∧ (civil (ts / 86400)).year ≤ 9999 := by
  have lo : civil (-4371587) = ⟨-9999, 1, 1⟩ := by decide
  have hi : civil 2932896 = ⟨9999, 12, 31⟩ := by decide
  have lo' : civil (-4371588) = ⟨-10000, 12, 31⟩ := by decide
  have hi' : civil 2932897 = ⟨10000, 1, 1⟩ := by decide
  have mono : ∀ a b : Int, a ≤ b → (civil a).year ≤ (civil b).year := by
    intro a b hab
    have key : ∀ k : Nat, (civil a).year ≤ (civil (a + k)).year := by
      intro k
      induction k with
      | zero => simp
      | succ k ih =>
        rw [show a + ((k + 1 : Nat) : Int) = a + k + 1 by omega, civil_next]
        unfold next
        repeat' split
        all_goals (simp only []; omega)
    have := key (b - a).toNat
    rwa [show a + ((b - a).toNat : Int) = b by omega] at this
  constructor
  · intro h
    have h1 := mono (-4371587) (ts / 86400) (by omega)
    have h2 := mono (ts / 86400) 2932896 (by omega)
    rw [lo] at h1
    rw [hi] at h2
    exact ⟨h1, h2⟩
  · intro h
    constructor
    · rcases Int.lt_or_le ts (-377705116800) with hx | hx
      · have := mono (ts / 86400) (-4371588) (by omega)
        rw [lo'] at this
        simp only [] at this
        omega
      · exact hx
    · rcases Int.lt_or_le 253402300799 ts with hx | hx
      · have := mono 2932897 (ts / 86400) (by omega)
        rw [hi'] at this
        simp only [] at this
        omega
      · exact hx

/-- Without a timestamp the creation date is the time of the export. -/
theorem pdf_unset (t : Int) : ∃ s, exportPdf none none t = .stamped s ∧ Names s t :=
  ⟨_, rfl, stamp_names t⟩

/-- Every 64-bit number that is printed is read as it is. -/
theorem epoch_round_trip (n : Int) (h1 : -9223372036854775808 ≤ n) (h2 : n ≤ 9223372036854775807) :
    parseEpoch (BuildScript.showInt n) = some n := by
  cases n with
  | ofNat n =>
    simp only [BuildScript.showInt]
    have hp := RustNum.parse_print (b := 10) (by decide) (by decide) 9223372036854775807 n (by simp at h2; omega)
    have hne : ∀ cs, RustNum.print 10 n ≠ '-' :: cs := by
      intro cs h
      have := RustNum.mem_print (b := 10) (by decide) n '-' (by rw [h]; exact List.mem_cons_self)
      obtain ⟨d, hd, hc⟩ := this
      have hall : ∀ d : Fin 10, '-' ≠ RustNum.digitChar d := by decide
      exact hall ⟨d, hd⟩ hc
    have hnil := RustNum.print_ne_nil (b := 10) (by decide) n
    unfold parseEpoch
    split
    · rename_i h; exact absurd h hnil
    · rename_i h; exact absurd h (hne _)
    · rename_i h; exact absurd h (hne _)
    · rw [hp]
      rfl
  | negSucc n =>
    simp only [BuildScript.showInt]
    have hnil := RustNum.print_ne_nil (b := 10) (by decide) (n + 1)
    have hp := RustNum.parseDigits_print (b := 10) (by decide) (by decide) 9223372036854775808 (n + 1) (by omega)
    unfold parseEpoch
    split
    · rename_i h; exact nomatch h
    · rename_i h; exact absurd (List.cons.inj h).2 hnil
    · rename_i cs _ h
      rw [← (List.cons.inj h).2, hp]
      rfl
    · rename_i h
      exact (h _ rfl).elim

/-- The option of the command counts more than the setting, and is refused if it is not a number. -/
theorem pdf_option (n : Int) (h1 : -9223372036854775808 ≤ n) (h2 : n ≤ 9223372036854775807)
    (config : Option Int) (t : Int) :
    exportPdf (some (BuildScript.showInt n)) config t = exportPdf none (some n) t := by
  simp only [exportPdf, epoch_round_trip n h1 h2]

theorem pdf_refused (value : List Char) (c : Char) (hc : c ∈ value) (hd : ¬ c.isDigit) (hs : c ≠ '+' ∧ c ≠ '-')
    (config : Option Int) (t : Int) : exportPdf (some value) config t = .refused := by
  have key : ∀ (m acc : Nat) (cs : List Char), c ∈ cs → RustNum.parseDigits 10 m acc cs = none := by
    intro m acc cs
    induction cs generalizing acc with
    | nil => intro h; exact nomatch h
    | cons x cs ih =>
      intro h
      simp only [RustNum.parseDigits]
      cases hx : RustNum.digitVal 10 x with
      | none => rfl
      | some d =>
        simp only []
        split
        · rcases List.mem_cons.1 h with rfl | h
          · exfalso
            rw [Pages.digitVal_ten] at hx
            split at hx
            · rename_i hdig
              apply hd
              simp only [Pages.isDigit, Bool.and_eq_true, decide_eq_true_eq] at hdig
              simp only [Char.isDigit, Bool.and_eq_true, decide_eq_true_eq]
              exact hdig
            · exact nomatch hx
          · exact ih _ h
        · rfl
  have hne : ∀ {x : Char} {cs : List Char}, value = x :: cs → c ≠ x → c ∈ cs := by
    intro x cs h hx
    rw [h] at hc
    exact (List.mem_cons.1 hc).resolve_left hx
  have hp : parseEpoch value = none := by
    unfold parseEpoch
    split
    · rfl
    · rfl
    · rename_i cs _
      rw [key _ _ cs (hne rfl hs.2)]
      rfl
    · unfold RustNum.parse
      split
      · rfl
      · rfl
      · rename_i cs _ _ _ _
        rw [key _ _ cs (hne rfl hs.1)]
        rfl
      · rw [key _ _ _ hc]
        rfl
  simp only [exportPdf, hp]

/-- A set creation date does not change the date that the document sees: a day after the creation
date the two differ. -/
theorem date_not_set (ts t : Int) (h0 : 0 ≤ ts) (h1 : ts ≤ 253402000000) :
    ∃ s, exportPdf none (some ts) t = .stamped s ∧ dateOf (fun _ => 0) (ts + 86400) none ≠ .date s.date := by
  have e : toUtcDateTime ts = some ts := if_pos ⟨by unfold utcMin; omega, by unfold utcMax; omega⟩
  refine ⟨toTypstTime ts, by simp only [exportPdf, e], ?_⟩
  intro h
  simp only [dateOf, fromYmd] at h
  split at h
  · have := civil_inj (Answer.date.inj h)
    omega
  · exact nomatch h

example : exportPdf (some "1234".toList) (some 5) 1794866399 = .stamped ⟨⟨1970, 1, 1⟩, 0, 20, 34⟩ := by decide
example : exportPdf (some "12a".toList) (some 5) 1794866399 = .refused := by decide

end Tinymist.Clock
