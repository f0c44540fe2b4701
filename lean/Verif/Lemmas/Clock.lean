import Verif.Model.Clock
import Verif.Spec.Clock
import Verif.Lemmas.Util
/-! # Lemmas about the calendar and the cells of worlds -/
namespace Tinymist.Clock
open Spec

/-- The parts of a day number. -/
structure Parts (n e c q r doy : Int) : Prop where
  sum : n + 719468 = 146097 * e + 36524 * c + 1461 * q + 365 * r + doy
  c0 : 0 ≤ c
  c3 : c ≤ 3
  q0 : 0 ≤ q
  q24 : q ≤ 24
  r0 : 0 ≤ r
  r3 : r ≤ 3
  d0 : 0 ≤ doy
  d365 : doy ≤ 365
  leapDay : doy = 365 → r = 3 ∧ (q = 24 → c = 3)

/-- The date of parts. -/
def ofParts (e c q r doy : Int) : Date :=
  let mp := (5 * doy + 2) / 153
  let day := doy - (153 * mp + 2) / 5 + 1
  let y := 400 * e + 100 * c + 4 * q + r
  if mp < 10 then ⟨y, mp + 3, day⟩ else ⟨y + 1, mp - 9, day⟩

theorem parts_exist (n : Int) : ∃ e c q r doy, Parts n e c q r doy ∧ civil n = ofParts e c q r doy := by
  refine ⟨(n + 719468) / 146097, min ((n + 719468) % 146097 / 36524) 3, _, _, _, ?_, rfl⟩
  constructor <;> omega

theorem parts_unique {n e c q r doy e' c' q' r' doy' : Int} (h : Parts n e c q r doy)
    (h' : Parts n e' c' q' r' doy') : e = e' ∧ c = c' ∧ q = q' ∧ r = r' ∧ doy = doy' := by
  obtain ⟨s, a1, a2, a3, a4, a5, a6, a7, a8, a9⟩ := h
  obtain ⟨s', b1, b2, b3, b4, b5, b6, b7, b8, b9⟩ := h'
  have he : e = e' := by omega
  subst he
  have hc : c = c' := by omega
  subst hc
  have hq : q = q' := by omega
  subst hq
  have hr : r = r' := by omega
  omega

theorem civil_parts {n e c q r doy : Int} (h : Parts n e c q r doy) : civil n = ofParts e c q r doy := by
  obtain ⟨e', c', q', r', doy', h', hc⟩ := parts_exist n
  obtain ⟨rfl, rfl, rfl, rfl, rfl⟩ := parts_unique h h'
  exact hc

/-- Whether the year that begins in March ends with a leap day. -/
theorem leap_of {e c q r : Int} (c0 : 0 ≤ c) (c3 : c ≤ 3) (q0 : 0 ≤ q) (q24 : q ≤ 24) (r0 : 0 ≤ r)
    (r3 : r ≤ 3) : Leap (400 * e + 100 * c + 4 * q + r + 1) ↔ r = 3 ∧ (q = 24 → c = 3) := by
  unfold Leap
  omega

/-- The date of a day of a year that begins in March, month by month. -/
theorem month_of {e c q r doy : Int} (h0 : 0 ≤ doy) (h1 : doy ≤ 365) :
    (0 ≤ doy ∧ doy ≤ 30 ∧ ofParts e c q r doy = ⟨(400 * e + 100 * c + 4 * q + r), 3, doy - -1⟩) ∨
    (31 ≤ doy ∧ doy ≤ 60 ∧ ofParts e c q r doy = ⟨(400 * e + 100 * c + 4 * q + r), 4, doy - 30⟩) ∨
    (61 ≤ doy ∧ doy ≤ 91 ∧ ofParts e c q r doy = ⟨(400 * e + 100 * c + 4 * q + r), 5, doy - 60⟩) ∨
    (92 ≤ doy ∧ doy ≤ 121 ∧ ofParts e c q r doy = ⟨(400 * e + 100 * c + 4 * q + r), 6, doy - 91⟩) ∨
    (122 ≤ doy ∧ doy ≤ 152 ∧ ofParts e c q r doy = ⟨(400 * e + 100 * c + 4 * q + r), 7, doy - 121⟩) ∨
    (153 ≤ doy ∧ doy ≤ 183 ∧ ofParts e c q r doy = ⟨(400 * e + 100 * c + 4 * q + r), 8, doy - 152⟩) ∨
    (184 ≤ doy ∧ doy ≤ 213 ∧ ofParts e c q r doy = ⟨(400 * e + 100 * c + 4 * q + r), 9, doy - 183⟩) ∨
    (214 ≤ doy ∧ doy ≤ 244 ∧ ofParts e c q r doy = ⟨(400 * e + 100 * c + 4 * q + r), 10, doy - 213⟩) ∨
    (245 ≤ doy ∧ doy ≤ 274 ∧ ofParts e c q r doy = ⟨(400 * e + 100 * c + 4 * q + r), 11, doy - 244⟩) ∨
    (275 ≤ doy ∧ doy ≤ 305 ∧ ofParts e c q r doy = ⟨(400 * e + 100 * c + 4 * q + r), 12, doy - 274⟩) ∨
    (306 ≤ doy ∧ doy ≤ 336 ∧ ofParts e c q r doy = ⟨(400 * e + 100 * c + 4 * q + r) + 1, 1, doy - 305⟩) ∨
    (337 ≤ doy ∧ doy ≤ 365 ∧ ofParts e c q r doy = ⟨(400 * e + 100 * c + 4 * q + r) + 1, 2, doy - 336⟩) := by
  have key : ∀ m : Int, (5 * doy + 2) / 153 = m → ofParts e c q r doy =
      if m < 10 then ⟨400 * e + 100 * c + 4 * q + r, m + 3, doy - (153 * m + 2) / 5 + 1⟩
      else ⟨400 * e + 100 * c + 4 * q + r + 1, m - 9, doy - (153 * m + 2) / 5 + 1⟩ := by
    intro m hm
    unfold ofParts
    simp only [hm]
  have hm : (5 * doy + 2) / 153 = 0 ∨ (5 * doy + 2) / 153 = 1 ∨ (5 * doy + 2) / 153 = 2 ∨
      (5 * doy + 2) / 153 = 3 ∨ (5 * doy + 2) / 153 = 4 ∨ (5 * doy + 2) / 153 = 5 ∨
      (5 * doy + 2) / 153 = 6 ∨ (5 * doy + 2) / 153 = 7 ∨ (5 * doy + 2) / 153 = 8 ∨
      (5 * doy + 2) / 153 = 9 ∨ (5 * doy + 2) / 153 = 10 ∨ (5 * doy + 2) / 153 = 11 := by
    generalize hx : (5 * doy + 2) / 153 = m
    have : 0 ≤ m := by omega
    have : m ≤ 11 := by omega
    omega
  rcases hm with h | h | h | h | h | h | h | h | h | h | h | h
  · refine Or.inl ⟨by omega, by omega, ?_⟩
    rw [key _ h]
    simp only [Int.reduceLT, if_true, if_false]
    refine Date.ext ?_ ?_ ?_ <;> simp only [] <;> omega
  · refine Or.inr (Or.inl ⟨by omega, by omega, ?_⟩)
    rw [key _ h]
    simp only [Int.reduceLT, if_true, if_false]
    refine Date.ext ?_ ?_ ?_ <;> simp only [] <;> omega
  · refine Or.inr (Or.inr (Or.inl ⟨by omega, by omega, ?_⟩))
    rw [key _ h]
    simp only [Int.reduceLT, if_true, if_false]
    refine Date.ext ?_ ?_ ?_ <;> simp only [] <;> omega
  · refine Or.inr (Or.inr (Or.inr (Or.inl ⟨by omega, by omega, ?_⟩)))
    rw [key _ h]
    simp only [Int.reduceLT, if_true, if_false]
    refine Date.ext ?_ ?_ ?_ <;> simp only [] <;> omega
  · refine Or.inr (Or.inr (Or.inr (Or.inr (Or.inl ⟨by omega, by omega, ?_⟩))))
    rw [key _ h]
    simp only [Int.reduceLT, if_true, if_false]
    refine Date.ext ?_ ?_ ?_ <;> simp only [] <;> omega
  · refine Or.inr (Or.inr (Or.inr (Or.inr (Or.inr (Or.inl ⟨by omega, by omega, ?_⟩)))))
    rw [key _ h]
    simp only [Int.reduceLT, if_true, if_false]
    refine Date.ext ?_ ?_ ?_ <;> simp only [] <;> omega
  · refine Or.inr (Or.inr (Or.inr (Or.inr (Or.inr (Or.inr (Or.inl ⟨by omega, by omega, ?_⟩))))))
    rw [key _ h]
    simp only [Int.reduceLT, if_true, if_false]
    refine Date.ext ?_ ?_ ?_ <;> simp only [] <;> omega
  · refine Or.inr (Or.inr (Or.inr (Or.inr (Or.inr (Or.inr (Or.inr (Or.inl ⟨by omega, by omega, ?_⟩)))))))
    rw [key _ h]
    simp only [Int.reduceLT, if_true, if_false]
    refine Date.ext ?_ ?_ ?_ <;> simp only [] <;> omega
  · refine Or.inr (Or.inr (Or.inr (Or.inr (Or.inr (Or.inr (Or.inr (Or.inr (Or.inl ⟨by omega, by omega, ?_⟩))))))))
    rw [key _ h]
    simp only [Int.reduceLT, if_true, if_false]
    refine Date.ext ?_ ?_ ?_ <;> simp only [] <;> omega
  · refine Or.inr (Or.inr (Or.inr (Or.inr (Or.inr (Or.inr (Or.inr (Or.inr (Or.inr (Or.inl ⟨by omega, by omega, ?_⟩)))))))))
    rw [key _ h]
    simp only [Int.reduceLT, if_true, if_false]
    refine Date.ext ?_ ?_ ?_ <;> simp only [] <;> omega
  · refine Or.inr (Or.inr (Or.inr (Or.inr (Or.inr (Or.inr (Or.inr (Or.inr (Or.inr (Or.inr (Or.inl ⟨by omega, by omega, ?_⟩))))))))))
    rw [key _ h]
    simp only [Int.reduceLT, if_true, if_false]
    refine Date.ext ?_ ?_ ?_ <;> simp only [] <;> omega
  · refine Or.inr (Or.inr (Or.inr (Or.inr (Or.inr (Or.inr (Or.inr (Or.inr (Or.inr (Or.inr (Or.inr (⟨by omega, by omega, ?_⟩)))))))))))
    rw [key _ h]
    simp only [Int.reduceLT, if_true, if_false]
    refine Date.ext ?_ ?_ ?_ <;> simp only [] <;> omega

theorem days_31 (y m : Int) (h : m = 1 ∨ m = 3 ∨ m = 5 ∨ m = 7 ∨ m = 8 ∨ m = 10 ∨ m = 12) : days y m = 31 := by
  unfold days
  rw [if_neg (by omega), if_neg (by omega)]

theorem days_30 (y m : Int) (h : m = 4 ∨ m = 6 ∨ m = 9 ∨ m = 11) : days y m = 30 := by
  unfold days
  rw [if_neg (by omega), if_pos h]

theorem days_29 (y : Int) (h : Leap y) : days y 2 = 29 := by
  unfold days
  rw [if_pos rfl, if_pos h]

theorem days_28 (y : Int) (h : ¬ Leap y) : days y 2 = 28 := by
  unfold days
  rw [if_pos rfl, if_neg h]

theorem next_day {y m d l : Int} (hl : days y m = l) (h : d < l) : next ⟨y, m, d⟩ = ⟨y, m, d + 1⟩ := by
  unfold next
  simp only [hl, if_pos h]

theorem next_month {y m d l : Int} (hl : days y m = l) (h : ¬ d < l) (hm : m < 12) :
    next ⟨y, m, d⟩ = ⟨y, m + 1, 1⟩ := by
  unfold next
  simp only [hl, if_neg h, if_pos hm]

theorem next_year {y d l : Int} (hl : days y 12 = l) (h : ¬ d < l) : next ⟨y, 12, d⟩ = ⟨y + 1, 1, 1⟩ := by
  unfold next
  simp only [hl, if_neg h]
  rfl

theorem parts_valid {n e c q r doy : Int} (h : Parts n e c q r doy) : Valid (ofParts e c q r doy) := by
  have hl := leap_of (e := e) h.c0 h.c3 h.q0 h.q24 h.r0 h.r3
  have hd := h.leapDay
  rcases month_of (e := e) (c := c) (q := q) (r := r) h.d0 h.d365 with
    h | h | h | h | h | h | h | h | h | h | h | h <;> obtain ⟨h1, h2, h3⟩ := h <;> rw [h3]
  · refine ⟨by simp, by simp, by simp only []; omega, ?_⟩
    simp only [days_31 _ 3 (by decide)]
    omega
  · refine ⟨by simp, by simp, by simp only []; omega, ?_⟩
    simp only [days_30 _ 4 (by decide)]
    omega
  · refine ⟨by simp, by simp, by simp only []; omega, ?_⟩
    simp only [days_31 _ 5 (by decide)]
    omega
  · refine ⟨by simp, by simp, by simp only []; omega, ?_⟩
    simp only [days_30 _ 6 (by decide)]
    omega
  · refine ⟨by simp, by simp, by simp only []; omega, ?_⟩
    simp only [days_31 _ 7 (by decide)]
    omega
  · refine ⟨by simp, by simp, by simp only []; omega, ?_⟩
    simp only [days_31 _ 8 (by decide)]
    omega
  · refine ⟨by simp, by simp, by simp only []; omega, ?_⟩
    simp only [days_30 _ 9 (by decide)]
    omega
  · refine ⟨by simp, by simp, by simp only []; omega, ?_⟩
    simp only [days_31 _ 10 (by decide)]
    omega
  · refine ⟨by simp, by simp, by simp only []; omega, ?_⟩
    simp only [days_30 _ 11 (by decide)]
    omega
  · refine ⟨by simp, by simp, by simp only []; omega, ?_⟩
    simp only [days_31 _ 12 (by decide)]
    omega
  · refine ⟨by simp, by simp, by simp only []; omega, ?_⟩
    simp only [days_31 _ 1 (by decide)]
    omega
  · refine ⟨by simp, by simp, by simp only []; omega, ?_⟩
    by_cases hx : Leap (400 * e + 100 * c + 4 * q + r + 1)
    · simp only [days_29 _ hx]
      omega
    · simp only [days_28 _ hx]
      have : doy ≠ 365 := fun he => hx (hl.2 (hd he))
      omega

theorem parts_next {n e c q r doy : Int} (h : Parts n e c q r doy)
    (hs : doy < 364 ∨ doy = 364 ∧ (r = 3 ∧ (q = 24 → c = 3))) :
    ofParts e c q r (doy + 1) = next (ofParts e c q r doy) := by
  have hl := leap_of (e := e) h.c0 h.c3 h.q0 h.q24 h.r0 h.r3
  have hd1 : 0 ≤ doy + 1 := by have := h.d0; omega
  have hd2 : doy + 1 ≤ 365 := by omega
  have hn := month_of (e := e) (c := c) (q := q) (r := r) hd1 hd2
  rcases month_of (e := e) (c := c) (q := q) (r := r) h.d0 h.d365 with
    h | h | h | h | h | h | h | h | h | h | h | h <;> obtain ⟨h1, h2, h3⟩ := h <;> rw [h3]
  · rcases hn with h | h | h | h | h | h | h | h | h | h | h | h <;> obtain ⟨g1, g2, g3⟩ := h <;>
      first | (exfalso; omega) | skip
    · rw [g3, next_day (days_31 _ 3 (by decide)) (by omega)]
      refine Date.ext ?_ ?_ ?_ <;> simp only [] <;> omega
    · rw [g3, next_month (days_31 _ 3 (by decide)) (by omega) (by decide)]
      refine Date.ext ?_ ?_ ?_ <;> simp only [] <;> omega
  · rcases hn with h | h | h | h | h | h | h | h | h | h | h | h <;> obtain ⟨g1, g2, g3⟩ := h <;>
      first | (exfalso; omega) | skip
    · rw [g3, next_day (days_30 _ 4 (by decide)) (by omega)]
      refine Date.ext ?_ ?_ ?_ <;> simp only [] <;> omega
    · rw [g3, next_month (days_30 _ 4 (by decide)) (by omega) (by decide)]
      refine Date.ext ?_ ?_ ?_ <;> simp only [] <;> omega
  · rcases hn with h | h | h | h | h | h | h | h | h | h | h | h <;> obtain ⟨g1, g2, g3⟩ := h <;>
      first | (exfalso; omega) | skip
    · rw [g3, next_day (days_31 _ 5 (by decide)) (by omega)]
      refine Date.ext ?_ ?_ ?_ <;> simp only [] <;> omega
    · rw [g3, next_month (days_31 _ 5 (by decide)) (by omega) (by decide)]
      refine Date.ext ?_ ?_ ?_ <;> simp only [] <;> omega
  · rcases hn with h | h | h | h | h | h | h | h | h | h | h | h <;> obtain ⟨g1, g2, g3⟩ := h <;>
      first | (exfalso; omega) | skip
    · rw [g3, next_day (days_30 _ 6 (by decide)) (by omega)]
      refine Date.ext ?_ ?_ ?_ <;> simp only [] <;> omega
    · rw [g3, next_month (days_30 _ 6 (by decide)) (by omega) (by decide)]
      refine Date.ext ?_ ?_ ?_ <;> simp only [] <;> omega
  · rcases hn with h | h | h | h | h | h | h | h | h | h | h | h <;> obtain ⟨g1, g2, g3⟩ := h <;>
      first | (exfalso; omega) | skip
    · rw [g3, next_day (days_31 _ 7 (by decide)) (by omega)]
      refine Date.ext ?_ ?_ ?_ <;> simp only [] <;> omega
    · rw [g3, next_month (days_31 _ 7 (by decide)) (by omega) (by decide)]
      refine Date.ext ?_ ?_ ?_ <;> simp only [] <;> omega
  · rcases hn with h | h | h | h | h | h | h | h | h | h | h | h <;> obtain ⟨g1, g2, g3⟩ := h <;>
      first | (exfalso; omega) | skip
    · rw [g3, next_day (days_31 _ 8 (by decide)) (by omega)]
      refine Date.ext ?_ ?_ ?_ <;> simp only [] <;> omega
    · rw [g3, next_month (days_31 _ 8 (by decide)) (by omega) (by decide)]
      refine Date.ext ?_ ?_ ?_ <;> simp only [] <;> omega
  · rcases hn with h | h | h | h | h | h | h | h | h | h | h | h <;> obtain ⟨g1, g2, g3⟩ := h <;>
      first | (exfalso; omega) | skip
    · rw [g3, next_day (days_30 _ 9 (by decide)) (by omega)]
      refine Date.ext ?_ ?_ ?_ <;> simp only [] <;> omega
    · rw [g3, next_month (days_30 _ 9 (by decide)) (by omega) (by decide)]
      refine Date.ext ?_ ?_ ?_ <;> simp only [] <;> omega
  · rcases hn with h | h | h | h | h | h | h | h | h | h | h | h <;> obtain ⟨g1, g2, g3⟩ := h <;>
      first | (exfalso; omega) | skip
    · rw [g3, next_day (days_31 _ 10 (by decide)) (by omega)]
      refine Date.ext ?_ ?_ ?_ <;> simp only [] <;> omega
    · rw [g3, next_month (days_31 _ 10 (by decide)) (by omega) (by decide)]
      refine Date.ext ?_ ?_ ?_ <;> simp only [] <;> omega
  · rcases hn with h | h | h | h | h | h | h | h | h | h | h | h <;> obtain ⟨g1, g2, g3⟩ := h <;>
      first | (exfalso; omega) | skip
    · rw [g3, next_day (days_30 _ 11 (by decide)) (by omega)]
      refine Date.ext ?_ ?_ ?_ <;> simp only [] <;> omega
    · rw [g3, next_month (days_30 _ 11 (by decide)) (by omega) (by decide)]
      refine Date.ext ?_ ?_ ?_ <;> simp only [] <;> omega
  · rcases hn with h | h | h | h | h | h | h | h | h | h | h | h <;> obtain ⟨g1, g2, g3⟩ := h <;>
      first | (exfalso; omega) | skip
    · rw [g3, next_day (days_31 _ 12 (by decide)) (by omega)]
      refine Date.ext ?_ ?_ ?_ <;> simp only [] <;> omega
    · rw [g3, next_year (days_31 _ 12 (by decide)) (by omega)]
      refine Date.ext ?_ ?_ ?_ <;> simp only [] <;> omega
  · rcases hn with h | h | h | h | h | h | h | h | h | h | h | h <;> obtain ⟨g1, g2, g3⟩ := h <;>
      first | (exfalso; omega) | skip
    · rw [g3, next_day (days_31 _ 1 (by decide)) (by omega)]
      refine Date.ext ?_ ?_ ?_ <;> simp only [] <;> omega
    · rw [g3, next_month (days_31 _ 1 (by decide)) (by omega) (by decide)]
      refine Date.ext ?_ ?_ ?_ <;> simp only [] <;> omega
  · rcases hn with h | h | h | h | h | h | h | h | h | h | h | h <;> obtain ⟨g1, g2, g3⟩ := h <;>
      first | (exfalso; omega) | skip
    rw [g3]
    by_cases hx : Leap (400 * e + 100 * c + 4 * q + r + 1)
    · rw [next_day (days_29 _ hx) (by omega)]
      refine Date.ext ?_ ?_ ?_ <;> simp only [] <;> omega
    · have : ¬ doy = 364 := fun he => hx (hl.2 ((hs.resolve_left (by omega)).2))
      rw [next_day (days_28 _ hx) (by omega)]
      refine Date.ext ?_ ?_ ?_ <;> simp only [] <;> omega

/-- The first of March after the last day of February. -/
theorem parts_next_year {n e c q r doy e' c' q' r' : Int} (h : Parts n e c q r doy)
    (hs : doy = 365 ∨ doy = 364 ∧ ¬ (r = 3 ∧ (q = 24 → c = 3)))
    (hy : 400 * e' + 100 * c' + 4 * q' + r' = 400 * e + 100 * c + 4 * q + r + 1) :
    ofParts e' c' q' r' 0 = next (ofParts e c q r doy) := by
  have hl := leap_of (e := e) h.c0 h.c3 h.q0 h.q24 h.r0 h.r3
  have hd := h.leapDay
  rcases month_of (e := e) (c := c) (q := q) (r := r) h.d0 h.d365 with
    h | h | h | h | h | h | h | h | h | h | h | h <;> obtain ⟨h1, h2, h3⟩ := h <;>
      first | (exfalso; omega) | skip
  rw [h3]
  have h0 : ofParts e' c' q' r' 0 = ⟨400 * e' + 100 * c' + 4 * q' + r', 3, 1⟩ := by
    unfold ofParts
    simp
  rw [h0]
  by_cases hx : Leap (400 * e + 100 * c + 4 * q + r + 1)
  · have : doy = 365 := hs.resolve_right fun h => h.2 (hl.1 hx)
    rw [next_month (days_29 _ hx) (by omega) (by decide)]
    refine Date.ext ?_ ?_ ?_ <;> simp only [] <;> omega
  · have : doy ≠ 365 := fun he => hx (hl.2 (hd he))
    rw [next_month (days_28 _ hx) (by omega) (by decide)]
    refine Date.ext ?_ ?_ ?_ <;> simp only [] <;> omega

theorem civil_next (n : Int) : civil (n + 1) = next (civil n) := by
  obtain ⟨e, c, q, r, doy, h, hc⟩ := parts_exist n
  rw [hc]
  obtain ⟨s, a1, a2, a3, a4, a5, a6, a7, a8, a9⟩ := id h
  by_cases hs : doy < 364 ∨ doy = 364 ∧ (r = 3 ∧ (q = 24 → c = 3))
  · have hp : Parts (n + 1) e c q r (doy + 1) := by constructor <;> omega
    rw [civil_parts hp, parts_next h hs]
  · have hs' : doy = 365 ∨ doy = 364 ∧ ¬ (r = 3 ∧ (q = 24 → c = 3)) := by
      by_cases hz : r = 3 ∧ (q = 24 → c = 3)
      · omega
      · exact (show doy = 365 ∨ doy = 364 by omega).imp_right fun h => ⟨h, hz⟩
    by_cases hr : r < 3
    · have hp : Parts (n + 1) e c q (r + 1) 0 := by constructor <;> omega
      rw [civil_parts hp, parts_next_year h hs' (by omega)]
    · by_cases hq : q < 24
      · have hp : Parts (n + 1) e c (q + 1) 0 0 := by constructor <;> omega
        rw [civil_parts hp, parts_next_year h hs' (by omega)]
      · by_cases hcc : c < 3
        · have hp : Parts (n + 1) e (c + 1) 0 0 0 := by constructor <;> omega
          rw [civil_parts hp, parts_next_year h hs' (by omega)]
        · have hp : Parts (n + 1) (e + 1) 0 0 0 0 := by constructor <;> omega
          rw [civil_parts hp, parts_next_year h hs' (by omega)]

theorem civil_valid (n : Int) : Valid (civil n) := by
  obtain ⟨e, c, q, r, doy, h, hc⟩ := parts_exist n
  rw [hc]
  exact parts_valid h

theorem civil_calendar : Calendar civil := ⟨by decide, fun n => ⟨civil_valid n, civil_next n⟩⟩

theorem days_pos (y m : Int) : 28 ≤ days y m := by
  unfold days
  repeat' split
  all_goals omega

theorem next_inj {a b : Date} (ha : Valid a) (hb : Valid b) (h : next a = next b) : a = b := by
  obtain ⟨y, m, d⟩ := a
  obtain ⟨y', m', d'⟩ := b
  obtain ⟨a1, a2, a3, a4⟩ := ha
  obtain ⟨b1, b2, b3, b4⟩ := hb
  have p1 := days_pos y m
  have p2 := days_pos y' m'
  have e : y = y' → m = m' → days y m = days y' m' := fun h1 h2 => by rw [h1, h2]
  simp only [] at *
  unfold next at h
  split at h <;> split at h <;> (try split at h) <;> (try split at h) <;> simp only [Date.mk.injEq] at h ⊢ <;> simp only [] at * <;> omega

theorem calendar_unique {f g : Int → Date} (hf : Calendar f) (hg : Calendar g) (n : Int) : f n = g n := by
  have up : ∀ k : Nat, f k = g k := by
    intro k
    induction k with
    | zero => exact hf.1.trans hg.1.symm
    | succ k ih =>
      have h1 := (hf.2 k).2
      have h2 := (hg.2 k).2
      rw [show ((k + 1 : Nat) : Int) = (k : Int) + 1 by omega, h1, h2, ih]
  have down : ∀ k : Nat, f (-k) = g (-k) := by
    intro k
    induction k with
    | zero => exact up 0
    | succ k ih =>
      have h1 := hf.2 (-((k + 1 : Nat) : Int))
      have h2 := hg.2 (-((k + 1 : Nat) : Int))
      rw [show -((k + 1 : Nat) : Int) + 1 = -(k : Int) by omega] at h1 h2
      exact next_inj h1.1 h2.1 (h1.2.symm.trans (ih.trans h2.2))
  obtain ⟨k, rfl | rfl⟩ := Int.eq_nat_or_neg n
  · exact up k
  · exact down k

/-! ## Histories -/

theorem origins_snoc (es : List Event) (e : Event) (os : List Nat) :
    origins (es ++ [e]) os = origins [e] (origins es os) := by
  induction es generalizing os with
  | nil => rfl
  | cons x es ih =>
    cases x with
    | snapshot => exact ih _
    | task i t =>
      simp only [List.cons_append, origins]
      cases os[i]? with
      | none => exact ih _
      | some o => exact ih _
    | ask i o t => exact ih _

theorem moment_snoc (f : Nat) (es : List Event) (e : Event) (os : List Nat) :
    moment f (es ++ [e]) os = (moment f es os).or (moment f [e] (origins es os)) := by
  induction es generalizing os with
  | nil => simp only [moment, origins, List.nil_append, Option.none_or]
  | cons x es ih =>
    cases x with
    | snapshot => exact ih _
    | task i t =>
      simp only [List.cons_append, moment, origins]
      cases os[i]? with
      | none => exact ih _
      | some o =>
        by_cases h : o = f
        · simp only [h, if_true, Option.some_or]
        · simp only [h, if_false]
          exact ih _
    | ask i o t =>
      simp only [List.cons_append, moment, origins]
      by_cases h : os[i]? = some f
      · simp only [h, if_true, Option.some_or]
      · simp only [h, if_false]
        exact ih _

theorem run_snoc (zone : Int → Int) (es : List Event) (e : Event) :
    run zone (es ++ [e]) = ((step zone (run zone es).1 e).1, (run zone es).2 ++ [(step zone (run zone es).1 e).2]) := by
  unfold run
  rw [List.foldl_append]
  rfl

/-- What the cells are, in terms of the first uses of the origins. -/
structure Inv (ws : Cells) (os : List Nat) (M : Nat → Option Int) : Prop where
  len : ws.length = os.length
  used : ∀ (i f : Nat) (t : Int), os[i]? = some f → M f = some t → ws[i]? = some (some t)
  fresh : ∀ (i f : Nat), os[i]? = some f → M f = none → i = f ∧ ws[i]? = some none
  old : ∀ (f : Nat) (t : Int), M f = some t → f < os.length

theorem inv_run (zone : Int → Int) (es : List Event) :
    Inv (run zone es).1 (origins es []) (fun f => moment f es []) := by
  induction es using Util.reverseInd with
  | nil =>
    refine ⟨rfl, ?_, ?_, ?_⟩
    · intro i f t h; simp [origins] at h
    · intro i f h; simp [origins] at h
    · intro f t h; simp [moment] at h
  | append_singleton es e ih =>
    simp only [moment_snoc, origins_snoc, run_snoc]
    generalize run zone es = R at ih ⊢
    generalize origins es [] = os at ih ⊢
    generalize hM : (fun f => moment f es []) = M at ih
    have hM' : ∀ f, moment f es [] = M f := fun f => congrFun hM f
    simp only [hM']
    obtain ⟨ws, out⟩ := R
    simp only [] at ih ⊢
    obtain ⟨h1, h2, h3, h4⟩ := ih
    cases e with
    | snapshot =>
      simp only [moment, origins, step, Option.or_none]
      refine ⟨by simp [h1], ?_, ?_, ?_⟩
      · intro i f t hi hf
        have hlt := h4 f t hf
        rcases Nat.lt_or_ge i os.length with h | h
        · rw [List.getElem?_append_left h] at hi
          rw [List.getElem?_append_left (by omega)]
          exact h2 i f t hi hf
        · rw [List.getElem?_append_right h] at hi
          obtain ⟨hx, hx'⟩ : i - os.length = 0 ∧ os.length = f := by
            cases hk : i - os.length with
            | zero => rw [hk] at hi; exact ⟨rfl, by simpa using hi⟩
            | succ k => rw [hk] at hi; simp at hi
          omega
      · intro i f hi hf
        rcases Nat.lt_or_ge i os.length with h | h
        · rw [List.getElem?_append_left h] at hi
          rw [List.getElem?_append_left (by omega)]
          exact h3 i f hi hf
        · rw [List.getElem?_append_right h] at hi
          obtain ⟨hx, hx'⟩ : i - os.length = 0 ∧ os.length = f := by
            cases hk : i - os.length with
            | zero => rw [hk] at hi; exact ⟨rfl, by simpa using hi⟩
            | succ k => rw [hk] at hi; simp at hi
          refine ⟨by omega, ?_⟩
          rw [List.getElem?_append_right (by omega), h1, hx]
          rfl
      · intro f t hf
        have := h4 f t hf
        simp only [List.length_append, List.length_singleton]
        omega
    | task i t =>
      simp only [moment, origins, step]
      cases ho : os[i]? with
      | none =>
        have hw : ws[i]? = none := by
          rw [List.getElem?_eq_none_iff] at ho ⊢
          omega
        simp only [hw, Option.or_none]
        exact ⟨h1, h2, h3, h4⟩
      | some g =>
        have hi : i < os.length := (List.getElem?_eq_some_iff.1 ho).1
        obtain ⟨now, hnow, cell, hset, hforce⟩ : ∃ now, (M g).or (some t) = some now ∧
            ∃ cell, ws[i]? = some cell ∧ force cell t = now := by
          cases hg : M g with
          | some T => exact ⟨T, rfl, some T, h2 i g T ho hg, rfl⟩
          | none => exact ⟨t, rfl, none, (h3 i g ho hg).2, rfl⟩
        simp only [hset, hforce]
        have hmom : ∀ f, (M f).or (if g = f then some t else none) = if g = f then some now else M f := by
          intro f
          by_cases h : g = f
          · subst h; simp only [if_true]; exact hnow
          · simp only [h, if_false, Option.or_none]
        simp only [hmom]
        refine ⟨by simp [h1], ?_, ?_, ?_⟩
        · intro j f T hj hf
          rcases Nat.lt_or_ge j os.length with h | h
          · rw [List.getElem?_append_left h] at hj
            rw [List.getElem?_append_left (by simpa [h1] using h)]
            by_cases hij : i = j
            · subst hij
              rw [List.getElem?_set_self (by omega)]
              rw [ho] at hj
              cases hj
              simp only [if_true] at hf
              rw [hf]
            · rw [List.getElem?_set_ne hij]
              by_cases hgf : g = f
              · subst hgf
                simp only [if_true] at hf
                cases hf
                cases hg : M g with
                | some T =>
                  rw [hg] at hnow
                  cases hnow
                  exact h2 j g _ hj hg
                | none =>
                  have e1 := (h3 j g hj hg).1
                  have e2 := (h3 i g ho hg).1
                  omega
              · simp only [hgf, if_false] at hf
                exact h2 j f T hj hf
          · rw [List.getElem?_append_right h] at hj
            obtain ⟨hx, hx'⟩ : j - os.length = 0 ∧ g = f := by
              cases hk : j - os.length with
              | zero => rw [hk] at hj; exact ⟨rfl, by simpa using hj⟩
              | succ k => rw [hk] at hj; simp at hj
            subst hx'
            simp only [if_true] at hf
            cases hf
            rw [List.getElem?_append_right (by simpa [h1] using h)]
            simp only [List.length_set, h1, hx]
            rfl
        · intro j f hj hf
          by_cases hgf : g = f
          · simp only [hgf, if_true] at hf
            exact nomatch hf
          · simp only [hgf, if_false] at hf
            rcases Nat.lt_or_ge j os.length with h | h
            · rw [List.getElem?_append_left h] at hj
              rw [List.getElem?_append_left (by simpa [h1] using h)]
              have hij : i ≠ j := by
                intro h
                subst h
                rw [ho] at hj
                cases hj
                exact hgf rfl
              rw [List.getElem?_set_ne hij]
              exact h3 j f hj hf
            · rw [List.getElem?_append_right h] at hj
              cases hk : j - os.length with
              | zero => rw [hk] at hj; exact absurd (by simpa using hj) hgf
              | succ k => rw [hk] at hj; simp at hj
        · intro f T hf
          simp only [List.length_append, List.length_singleton]
          by_cases hgf : g = f
          · subst hgf
            cases hg : M g with
            | some T => have := h4 g T hg; omega
            | none => have := (h3 i g ho hg).1; omega
          · simp only [hgf, if_false] at hf
            have := h4 f T hf
            omega
    | ask i o t =>
      simp only [moment, origins, step]
      cases ho : os[i]? with
      | none =>
        have hw : ws[i]? = none := by
          rw [List.getElem?_eq_none_iff] at ho ⊢
          omega
        simp only [hw, reduceCtorEq, if_false, Option.or_none]
        exact ⟨h1, h2, h3, h4⟩
      | some g =>
        have hi : i < os.length := (List.getElem?_eq_some_iff.1 ho).1
        obtain ⟨now, hnow, cell, hset, hforce⟩ : ∃ now, (M g).or (some t) = some now ∧
            ∃ cell, ws[i]? = some cell ∧ force cell t = now := by
          cases hg : M g with
          | some T => exact ⟨T, rfl, some T, h2 i g T ho hg, rfl⟩
          | none => exact ⟨t, rfl, none, (h3 i g ho hg).2, rfl⟩
        simp only [hset, hforce]
        have hmom : ∀ f, (M f).or (if some g = some f then some t else none) = if g = f then some now else M f := by
          intro f
          by_cases h : g = f
          · subst h; simp only [if_true]; exact hnow
          · simp only [Option.some.injEq, h, if_false, Option.or_none]
        simp only [hmom]
        refine ⟨by simp [h1], ?_, ?_, ?_⟩
        · intro j f T hj hf
          by_cases hij : i = j
          · subst hij
            rw [List.getElem?_set_self (by omega)]
            rw [ho] at hj
            cases hj
            simp only [if_true] at hf
            rw [hf]
          · rw [List.getElem?_set_ne hij]
            by_cases hgf : g = f
            · subst hgf
              simp only [if_true] at hf
              cases hf
              cases hg : M g with
              | some T =>
                rw [hg] at hnow
                cases hnow
                exact h2 j g _ hj hg
              | none =>
                have e1 := (h3 j g hj hg).1
                have e2 := (h3 i g ho hg).1
                omega
            · simp only [hgf, if_false] at hf
              exact h2 j f T hj hf
        · intro j f hj hf
          by_cases hgf : g = f
          · simp only [hgf, if_true] at hf
            exact nomatch hf
          · simp only [hgf, if_false] at hf
            have hij : i ≠ j := by
              intro h
              subst h
              rw [ho] at hj
              cases hj
              exact hgf rfl
            rw [List.getElem?_set_ne hij]
            exact h3 j f hj hf
        · intro f T hf
          by_cases hgf : g = f
          · subst hgf
            cases hg : M g with
            | some T => exact h4 g T hg
            | none => have := (h3 i g ho hg).1; omega
          · simp only [hgf, if_false] at hf
            exact h4 f T hf

end Tinymist.Clock
