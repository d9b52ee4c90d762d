/-
Property C07: grids.
-/
import Verif.Model.Vtypes
import Mathlib.Tactic.Linarith
import Mathlib.Tactic.Ring
import Mathlib.Tactic.FieldSimp
import Mathlib.Tactic.NormNum
import Mathlib.Tactic.Positivity

namespace Probayes

theorem linspace_length (a b : ℝ) (m : ℕ) : (linspace a b m).length = m := by
  simp [linspace]

theorem linspace_get (a b : ℝ) (m i : ℕ) (h : i < (linspace a b m).length) :
    (linspace a b m)[i] = a + (i : ℝ) * ((b - a) / ((m : ℝ) - 1)) := by
  simp [linspace]

/-- Specification: position of the `i`-th of `n` grid points as a fraction of
the interval.  With both ends included the fractions are `i/(n-1)` (the
midpoint for a single point); an excluded lower end shifts by one step. -/
noncomputable def Spec.fraction (n i : ℕ) (ex0 ex1 : Bool) : ℝ :=
  match ex0, ex1 with
  | false, false => if n = 1 then 1 / 2 else i / ((n : ℝ) - 1)
  | true, true => ((i : ℝ) + 1) / ((n : ℝ) + 1)
  | true, false => ((i : ℝ) + 1) / n
  | false, true => i / (n : ℝ)

/-- C07: exactly `n` values, each at the specified fraction of the interval. -/
theorem C07_grid (v0 v1 : ℝ) (n : ℕ) (hn : 1 ≤ n) (ex0 ex1 : Bool) (rand : ℕ → ℝ) :
    ∃ xs, uniform v0 v1 n ex0 ex1 rand = .array xs ∧ xs.length = n ∧
      ∀ i (h : i < xs.length), xs[i] = v0 + (v1 - v0) * Spec.fraction n i ex0 ex1 := by
  have h0 : ¬ ((n : ℤ) = 0) := by omega
  have h1 : ¬ ((n : ℤ) < 0) := by omega
  have hn0 : (n : ℝ) ≠ 0 := by positivity
  simp only [uniform, if_neg h0, if_neg h1, Int.natAbs_natCast]
  cases ex0 <;> cases ex1 <;> simp only
  · by_cases hk : n = 1
    · subst hk
      refine ⟨_, by rw [if_pos rfl], by simp [linspace_length], ?_⟩
      intro i hi
      simp [linspace_length] at hi
      subst hi
      simp [linspace_get, Spec.fraction]
      norm_num; ring
    · refine ⟨_, by rw [if_neg hk], by simp [linspace_length], ?_⟩
      intro i hi
      simp only [linspace_get, Spec.fraction, if_neg hk]
      ring
  · refine ⟨_, rfl, by simp [linspace_length], ?_⟩
    intro i hi
    simp only [List.getElem_dropLast, linspace_get, Spec.fraction]
    push_cast
    rw [show ((n : ℝ) + 1 - 1) = n by ring]; ring
  · refine ⟨_, rfl, by simp [linspace_length], ?_⟩
    intro i hi
    simp only [List.getElem_tail, linspace_get, Spec.fraction]
    push_cast
    rw [show ((n : ℝ) + 1 - 1) = n by ring]; ring
  · refine ⟨_, rfl, by simp [linspace_length], ?_⟩
    intro i hi
    simp only [List.getElem_dropLast, List.getElem_tail, linspace_get, Spec.fraction]
    push_cast
    rw [show ((n : ℝ) + 2 - 1) = n + 1 by ring]; ring

theorem Spec.fraction_bounds (n i : ℕ) (hi : i < n) (ex0 ex1 : Bool) :
    0 ≤ Spec.fraction n i ex0 ex1 ∧ Spec.fraction n i ex0 ex1 ≤ 1 ∧
    (ex0 = true → 0 < Spec.fraction n i ex0 ex1) ∧
    (ex1 = true → Spec.fraction n i ex0 ex1 < 1) := by
  have hin : (i : ℝ) + 1 ≤ n := by exact_mod_cast hi
  have hn : (0 : ℝ) < n := by have : 0 < n := by omega
                              exact_mod_cast this
  have hi0 : (0 : ℝ) ≤ i := by positivity
  cases ex0 <;> cases ex1 <;> simp only [Spec.fraction, Bool.false_eq_true, false_implies,
    forall_const, and_true, true_and]
  · by_cases h1 : n = 1
    · simp only [if_pos h1]; norm_num
    · simp only [if_neg h1]
      have : (0 : ℝ) < (n : ℝ) - 1 := by
        have : 1 < n := by omega
        have : (1 : ℝ) < n := by exact_mod_cast this
        linarith
      exact ⟨div_nonneg hi0 this.le, (div_le_one this).mpr (by linarith)⟩
  · exact ⟨div_nonneg hi0 hn.le, (div_le_one hn).mpr (by linarith), (div_lt_one hn).mpr (by linarith)⟩
  · exact ⟨by positivity, (div_le_one hn).mpr (by linarith), by positivity⟩
  · exact ⟨by positivity, (div_le_one (by linarith)).mpr (by linarith), by positivity,
      (div_lt_one (by linarith)).mpr (by linarith)⟩

/-- C07: all values lie between the limits and an excluded limit is never hit. -/
theorem C07_grid_within (v0 v1 : ℝ) (hv : v0 < v1) (n : ℕ) (hn : 1 ≤ n) (ex0 ex1 : Bool)
    (rand : ℕ → ℝ) :
    ∃ xs, uniform v0 v1 n ex0 ex1 rand = .array xs ∧ xs.length = n ∧
      ∀ x ∈ xs, v0 ≤ x ∧ x ≤ v1 ∧ (ex0 = true → v0 < x) ∧ (ex1 = true → x < v1) := by
  obtain ⟨xs, hxs, hlen, hget⟩ := C07_grid v0 v1 n hn ex0 ex1 rand
  refine ⟨xs, hxs, hlen, ?_⟩
  intro x hx
  obtain ⟨i, hi, rfl⟩ := List.getElem_of_mem hx
  obtain ⟨a, b, c, d⟩ := Spec.fraction_bounds n i (by omega) ex0 ex1
  have hd : 0 < v1 - v0 := by linarith
  rw [hget i hi]
  refine ⟨by nlinarith, by nlinarith, fun h => ?_, fun h => ?_⟩
  · have := mul_pos hd (c h); linarith
  · have := mul_lt_mul_of_pos_left (d h) hd; linarith

/-- C07: consecutive values are equally spaced, in increasing order. -/
theorem C07_grid_spacing (v0 v1 : ℝ) (hv : v0 < v1) (n : ℕ) (hn : 1 ≤ n) (ex0 ex1 : Bool)
    (rand : ℕ → ℝ) :
    ∃ xs step, uniform v0 v1 n ex0 ex1 rand = .array xs ∧ xs.length = n ∧ 0 < step ∧
      ∀ i (h : i + 1 < xs.length), xs[i + 1] - xs[i] = step := by
  obtain ⟨xs, hxs, hlen, hget⟩ := C07_grid v0 v1 n hn ex0 ex1 rand
  have hd : 0 < v1 - v0 := by linarith
  have hn0 : (0 : ℝ) < n := by positivity
  by_cases h1 : n = 1
  · exact ⟨xs, 1, hxs, hlen, one_pos, fun i h => by omega⟩
  have hn1 : (0 : ℝ) < (n : ℝ) - 1 := by
    have : 1 < n := by omega
    have : (1 : ℝ) < n := by exact_mod_cast this
    linarith
  refine ⟨xs, (v1 - v0) * (match ex0, ex1 with
    | false, false => 1 / ((n : ℝ) - 1)
    | true, true => 1 / ((n : ℝ) + 1)
    | _, _ => 1 / (n : ℝ)), hxs, hlen, ?_, ?_⟩
  · cases ex0 <;> cases ex1 <;> simp only <;> positivity
  · intro i h
    rw [hget, hget]
    cases ex0 <;> cases ex1 <;> simp only [Spec.fraction, if_neg h1] <;> push_cast <;> ring

/-- C07: included limits are attained (from two values on). -/
theorem C07_grid_attains (v0 v1 : ℝ) (n : ℕ) (hn : 2 ≤ n) (ex0 ex1 : Bool) (rand : ℕ → ℝ) :
    ∃ xs, uniform v0 v1 n ex0 ex1 rand = .array xs ∧
      (ex0 = false → v0 ∈ xs) ∧ (ex1 = false → v1 ∈ xs) := by
  obtain ⟨xs, hxs, hlen, hget⟩ := C07_grid v0 v1 n (by omega) ex0 ex1 rand
  have hn0 : (n : ℝ) ≠ 0 := by positivity
  have hn1 : ((n : ℝ) - 1) ≠ 0 := by
    have : 1 < n := by omega
    have : (1 : ℝ) < n := by exact_mod_cast this
    linarith
  have h1 : n ≠ 1 := by omega
  refine ⟨xs, hxs, ?_, ?_⟩
  · rintro rfl
    refine List.mem_iff_getElem.mpr ⟨0, by omega, ?_⟩
    rw [hget]; cases ex1 <;> simp [Spec.fraction, h1]
  · rintro rfl
    refine List.mem_iff_getElem.mpr ⟨n - 1, by omega, ?_⟩
    have hc : ((n - 1 : ℕ) : ℝ) = (n : ℝ) - 1 := by
      rw [Nat.cast_sub (by omega)]; simp
    rw [hget]; cases ex0 <;> simp only [Spec.fraction, if_neg h1, hc] <;> field_simp <;> ring

/-- Non-vacuity: five points of (0, 1]. -/
example : ∃ xs, uniform 0 1 (5 : ℕ) true false (fun _ => 0) = .array xs ∧ xs.length = 5 ∧
    ∀ x ∈ xs, (0:ℝ) ≤ x ∧ x ≤ 1 ∧ (true = true → 0 < x) ∧ (false = true → x < 1) :=
  C07_grid_within 0 1 one_pos 5 (by norm_num) true false _

end Probayes
