import Verif.Spec.Packages
import Verif.Lemmas.RustNum
/-! Versions and directories. -/
namespace Tinymist.Packages
open RustNum

theorem digit_of_print {n : Nat} {c : Char} (h : c ∈ print 10 n) : c ≠ '.' ∧ c ≠ '/' := by
  obtain ⟨d, hd, rfl⟩ := mem_print (by omega) n c h
  have : ∀ d, d < 10 → digitChar d ≠ '.' ∧ digitChar d ≠ '/' := by decide
  exact this d hd

theorem splitDots_append {a : Text} (h : '.' ∉ a) (b : Text) : splitDots (a ++ '.' :: b) = a :: splitDots b := by
  induction a with
  | nil => simp [splitDots]
  | cons c a ih =>
    have hc : c ≠ '.' := fun hx => h (by simp [hx])
    simp only [List.cons_append, splitDots, hc, if_false]
    rw [ih fun hx => h (List.mem_cons_of_mem _ hx)]

theorem splitDots_plain {a : Text} (h : '.' ∉ a) : splitDots a = [a] := by
  induction a with
  | nil => rfl
  | cons c a ih =>
    have hc : c ≠ '.' := fun hx => h (by simp [hx])
    simp only [splitDots, hc, if_false]
    rw [ih fun hx => h (List.mem_cons_of_mem _ hx)]

theorem noDot (n : Nat) : '.' ∉ print 10 n := fun h => (digit_of_print h).1 rfl

theorem parse_version_print {v : Version} (h : v.Fits) : parseVersion v.print = some v := by
  unfold parseVersion Version.print
  rw [splitDots_append (noDot _), splitDots_append (noDot _), splitDots_plain (noDot _)]
  simp only [parse_print (b := 10) (by omega) (by omega) _ _ h.1, parse_print (b := 10) (by omega) (by omega) _ _ h.2.1,
    parse_print (b := 10) (by omega) (by omega) _ _ h.2.2]

theorem parse_fits {t : Text} {v : Version} (h : parseVersion t = some v) : v.Fits := by
  unfold parseVersion at h
  split at h
  · split at h
    · rename_i h1 h2 h3
      cases h
      exact ⟨parse_le h1, parse_le h2, parse_le h3⟩
    · cases h
  · cases h

theorem version_slash (v : Version) : '/' ∉ v.print := by
  unfold Version.print
  simp only [List.mem_append, List.mem_cons, not_or]
  exact ⟨fun h => (digit_of_print h).2 rfl, by decide, fun h => (digit_of_print h).2 rfl, by decide, fun h => (digit_of_print h).2 rfl⟩

theorem slash_split {a a' b b' : Text} (h : a ++ '/' :: b = a' ++ '/' :: b') (ha : '/' ∉ a) (ha' : '/' ∉ a') : a = a' ∧ b = b' := by
  induction a generalizing a' with
  | nil =>
    cases a' with
    | nil => simpa using h
    | cons c a' => simp only [List.nil_append, List.cons_append, List.cons.injEq] at h; exact absurd (by simp [← h.1]) ha'
  | cons c a ih =>
    cases a' with
    | nil => simp only [List.nil_append, List.cons_append, List.cons.injEq] at h; exact absurd (by simp [h.1]) ha
    | cons c' a' =>
      simp only [List.cons_append, List.cons.injEq] at h
      obtain ⟨h1, h2⟩ := ih h.2 (fun hx => ha (List.mem_cons_of_mem _ hx)) (fun hx => ha' (List.mem_cons_of_mem _ hx))
      exact ⟨by rw [h.1, h1], h2⟩

theorem print_inj10 {a b : Nat} (h : print 10 a = print 10 b) : a = b := by
  have h1 := parse_print (b := 10) (by omega) (by omega) (max a b) a (by omega)
  have h2 := parse_print (b := 10) (by omega) (by omega) (max a b) b (by omega)
  rw [h, h2] at h1
  exact (Option.some.inj h1).symm

theorem splitDots_version (v : Version) : splitDots v.print = [print 10 v.major, print 10 v.minor, print 10 v.patch] := by
  unfold Version.print
  rw [splitDots_append (noDot _), splitDots_append (noDot _), splitDots_plain (noDot _)]

theorem version_inj {v w : Version} (h : v.print = w.print) : v = w := by
  have := splitDots_version v
  rw [h, splitDots_version w] at this
  simp only [List.cons.injEq, and_true] at this
  obtain ⟨a, b, c⟩ := v
  obtain ⟨a', b', c'⟩ := w
  simp only at this
  rw [print_inj10 this.1, print_inj10 this.2.1, print_inj10 this.2.2]

/-- Different packages have different directories. -/
theorem subdir_inj {s t : Spec} (hs : s.Plain) (ht : t.Plain) (h : subdir s = subdir t) : s = t := by
  obtain ⟨h1, h2⟩ := slash_split h hs.ns ht.ns
  obtain ⟨h3, h4⟩ := slash_split h2 hs.name ht.name
  obtain ⟨a, b, c⟩ := s
  obtain ⟨a', b', c'⟩ := t
  simp only at h1 h3 h4
  rw [h1, h3, version_inj h4]

/-! Order -/

instance : Std.TransCmp Version.cmp := inferInstanceAs (Std.TransCmp (compareLex (compareOn Version.major) (compareLex (compareOn Version.minor) (compareOn Version.patch))))

theorem le_iff (v w : Version) : v.cmp w ≠ .gt ↔ v.Le w := by
  unfold Version.cmp Version.Le compareLex compareOn
  rcases Nat.lt_trichotomy v.major w.major with h | h | h
  · simp [Nat.compare_eq_lt.mpr h, h]
  · rcases Nat.lt_trichotomy v.minor w.minor with h' | h' | h'
    · simp [h, Nat.compare_eq_lt.mpr h', h']
    · rcases Nat.lt_trichotomy v.patch w.patch with h'' | h'' | h''
      · simp [h, h', Nat.compare_eq_lt.mpr h'']; omega
      · simp [h, h', h'']
      · simp [h, h', Nat.compare_eq_gt.mpr h'']; omega
    · simp [h, Nat.compare_eq_gt.mpr h']; omega
  · simp [Nat.compare_eq_gt.mpr h]; omega

theorem cmp_eq {v w : Version} (h : v.cmp w = .eq) : v = w := by
  unfold Version.cmp compareLex compareOn at h
  simp only [Ordering.then_eq_eq, Nat.compare_eq_eq] at h
  obtain ⟨a, b, c⟩ := v
  obtain ⟨a', b', c'⟩ := w
  simp only at h
  rw [h.1, h.2.1, h.2.2]

theorem Version.le_refl (v : Version) : v.Le v := by unfold Version.Le; omega
theorem Version.le_trans {u v w : Version} (h : u.Le v) (h' : v.Le w) : u.Le w := by unfold Version.Le at *; omega
theorem Version.le_total (u v : Version) : u.Le v ∨ v.Le u := by unfold Version.Le; omega
theorem Version.le_antisymm {u v : Version} (h : u.Le v) (h' : v.Le u) : u = v := by
  unfold Version.Le at *
  obtain ⟨a, b, c⟩ := u
  obtain ⟨a', b', c'⟩ := v
  simp only at *
  have : a = a' ∧ b = b' ∧ c = c' := by omega
  rw [this.1, this.2.1, this.2.2]

theorem maxVersion_some {l : List Version} {v : Version} : maxVersion l = some v ↔ v ∈ l ∧ ∀ w ∈ l, w.Le v := by
  induction l generalizing v with
  | nil => simp [maxVersion]
  | cons a l ih =>
    unfold maxVersion
    cases hm : maxVersion l with
    | none =>
      have : l = [] := by
        cases l with
        | nil => rfl
        | cons b l =>
          unfold maxVersion at hm
          split at hm
          · cases hm
          · split at hm <;> cases hm
      subst this
      simp only [Option.some.injEq, List.mem_singleton, forall_eq]
      constructor
      · rintro rfl; exact ⟨rfl, Version.le_refl _⟩
      · rintro ⟨rfl, -⟩; rfl
    | some m =>
      obtain ⟨hml, hmax⟩ := ih.mp hm
      simp only [List.mem_cons, forall_eq_or_imp]
      by_cases hgt : a.cmp m = .gt
      · have hma : m.Le a := by
          rcases Version.le_total m a with h | h
          · exact h
          · exact absurd hgt ((le_iff a m).mpr h)
        simp only [hgt, if_true, Option.some.injEq]
        constructor
        · rintro rfl
          exact ⟨Or.inl rfl, Version.le_refl _, fun w hw => Version.le_trans (hmax w hw) hma⟩
        · rintro ⟨hv | hv, h1, h2⟩
          · exact hv.symm
          · exact Version.le_antisymm h1 (Version.le_trans (hmax v hv) hma)
      · have ham : a.Le m := (le_iff a m).mp hgt
        simp only [hgt, if_false, Option.some.injEq]
        constructor
        · rintro rfl
          exact ⟨Or.inr hml, ham, hmax⟩
        · rintro ⟨hv | hv, h1, h2⟩
          · subst hv; exact Version.le_antisymm (h2 m hml) ham
          · exact Version.le_antisymm (h2 m hml) (hmax v hv)

theorem maxVersion_none {l : List Version} : maxVersion l = none ↔ l = [] := by
  cases l with
  | nil => simp [maxVersion]
  | cons a l =>
    simp only [maxVersion, reduceCtorEq, iff_false]
    split
    · simp
    · split <;> simp

end Tinymist.Packages
