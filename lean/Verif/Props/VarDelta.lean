/-
Property C58: random deltas are symmetric.
-/
import Verif.Props.Variable2
import Verif.Model.VarDelta

namespace Probayes

/-- The amounts a float variable can move by, over all uniform draws. -/
def Spec.FloatMove (o : DeltaOpts) (len : ℝ) (s : DeltaSpec) (x : ℝ) : Prop :=
  ∃ u : ℝ, 0 ≤ u ∧ u < 1 ∧ evalDelta o len (some s) u = some x

/-- The amounts an integer variable can move by, over all draws in their
documented ranges. -/
def Spec.IntMove (default : Option IntDelta) (scale : Bool) (len : ℤ) (s : IntDelta) (d x : ℤ) : Prop :=
  ∃ (u : ℝ) (r : ℤ), 0 ≤ u ∧ u < 1 ∧ -d ≤ r ∧ r < d ∧
    evalDeltaInt default scale len (some s) u r = .ok (some x)

/-- C58 as intended: whatever random move is possible, its opposite is (up to
the end points of the continuous range), and no move exceeds `d`. -/
def C58_claim : Prop :=
  (∀ (o : DeltaOpts) (len d x : ℝ), 0 < d → Spec.FloatMove o len (.orand d) x →
    |x| ≤ d ∧ Spec.FloatMove o len (.orand d) (-x)) ∧
  (∀ (o : DeltaOpts) (len d x : ℝ), 0 < d → Spec.FloatMove o len (.urand d) x →
    |x| ≤ d ∧ (|x| < d → Spec.FloatMove o len (.urand d) (-x))) ∧
  (∀ (default : Option IntDelta) (scale : Bool) (len d x : ℤ), 0 < d →
    Spec.IntMove default scale len (.urand d) d x →
    |x| ≤ d ∧ Spec.IntMove default scale len (.urand d) d (-x))

/-- C58 fails for integers: `[1]` moves by -1 or 0, never by 1. -/
theorem C58_claim_fails : ¬ C58_claim := by
  rintro ⟨-, -, h⟩
  obtain ⟨-, u, r, -, -, h1, h2, h3⟩ := h none false 1 1 (-1) one_pos
    ⟨0, -1, le_refl _, one_pos, by omega, by omega, by
      simp [evalDeltaInt, intOrDefault, intDraw, randint, bind, Except.bind, pure, Except.pure]⟩
  simp [evalDeltaInt, intOrDefault, intDraw, randint, bind, Except.bind, pure, Except.pure] at h3
  omega

/-- C58 for float variables with `(d,)`: the moves are exactly `d` and `-d`,
with the sign given by the draw. -/
theorem C58_polarity_partial (o : DeltaOpts) (len d u : ℝ) (hs : o.scale = false) :
    evalDelta o len (some (.orand d)) u = some (if 1 / 2 < u then d else -d) ∧
    ∀ x, Spec.FloatMove o len (.orand d) x ↔ x = d ∨ x = -d := by
  have hev : ∀ u, evalDelta o len (some (.orand d)) u = some (if 1 / 2 < u then d else -d) := by
    intro u
    simp [evalDelta, orDefault, DeltaSpec.truthy, hs]
  refine ⟨hev u, ?_⟩
  intro x
  constructor
  · rintro ⟨u, -, -, h⟩
    rw [hev] at h
    simp only [Option.some.injEq] at h
    split at h
    · exact Or.inl h.symm
    · exact Or.inr h.symm
  · rintro (rfl | rfl)
    · exact ⟨3 / 4, by norm_num, by norm_num, by rw [hev, if_pos (by norm_num)]⟩
    · exact ⟨0, by norm_num, by norm_num, by rw [hev, if_neg (by norm_num)]⟩

/-- C58 for float variables with `[d]`: the moves are exactly those from `-d` up
to but excluding `d`, and the move grows linearly with the draw. -/
theorem C58_uniform_partial (o : DeltaOpts) (len d : ℝ) (hs : o.scale = false) (hd : 0 < d) :
    (∀ x, Spec.FloatMove o len (.urand d) x ↔ -d ≤ x ∧ x < d) ∧
    ∀ u x, evalDelta o len (some (.urand d)) u = some x → (x + d) / (d + d) = u := by
  have hev : ∀ u, evalDelta o len (some (.urand d)) u = some (-d + 2 * d * u) := by
    intro u
    simp [evalDelta, orDefault, DeltaSpec.truthy, hs]
  refine ⟨?_, ?_⟩
  · intro x
    constructor
    · rintro ⟨u, h0, h1, h⟩
      rw [hev] at h
      simp only [Option.some.injEq] at h
      subst h
      constructor <;> nlinarith
    · rintro ⟨h0, h1⟩
      refine ⟨(x + d) / (2 * d), by apply div_nonneg <;> linarith, ?_, ?_⟩
      · rw [div_lt_one (by linarith)]; linarith
      · rw [hev]; congr 1; field_simp; ring
  · intro u x h
    rw [hev] at h
    simp only [Option.some.injEq] at h
    subst h
    field_simp; ring

/-- C58 for integer variables with `[d]`: the moves are exactly those from `-d`
up to `d - 1`, and a range `d ≤ 0` is refused. -/
theorem C58_integer_partial (default : Option IntDelta) (len d : ℤ) :
    (∀ x, Spec.IntMove default false len (.urand d) d x ↔ -d ≤ x ∧ x < d) ∧
    (d ≤ 0 → ∀ u r, evalDeltaInt default false len (some (.urand d)) u r = .error .value) := by
  have hev : ∀ u r, evalDeltaInt default false len (some (.urand d)) u r =
      if -d < d then .ok (some r) else .error .value := by
    intro u r
    by_cases h : -d < d <;>
      simp [evalDeltaInt, intOrDefault, intDraw, randint, bind, Except.bind, pure, Except.pure, h]
  refine ⟨?_, ?_⟩
  · intro x
    constructor
    · rintro ⟨u, r, -, -, h1, h2, h⟩
      rw [hev] at h
      split at h
      · simp only [Except.ok.injEq, Option.some.injEq] at h
        omega
      · simp at h
    · rintro ⟨h1, h2⟩
      exact ⟨0, x, le_refl _, one_pos, h1, h2, by rw [hev, if_pos (by omega)]⟩
  · intro h u r
    rw [hev, if_neg (by omega)]

/-- C58 for integer variables with `(d,)`: exactly `d` or `-d`. -/
theorem C58_integer_polarity_partial (default : Option IntDelta) (len d : ℤ) (u : ℝ) (r : ℤ) :
    evalDeltaInt default false len (some (.orand d)) u r = .ok (some (if 1 / 2 < u then d else -d)) := by
  simp [evalDeltaInt, intOrDefault, intDraw, bind, Except.bind, pure, Except.pure]

/-- C58 fails also with `scale` when the default delta is the same number: the
positive move is scaled and the negative one is not, in floats ... -/
theorem C58_scaled_fails : ∃ (o : DeltaOpts) (len : ℝ),
    Spec.FloatMove o len (.orand 2) 20 ∧ ¬ Spec.FloatMove o len (.orand 2) (-20) ∧
    Spec.FloatMove o len (.orand 2) (-2) := by
  refine ⟨⟨some (.scalar 2), true, false⟩, 10, ⟨3 / 4, by norm_num, by norm_num, ?_⟩, ?_,
    ⟨0, by norm_num, by norm_num, ?_⟩⟩
  · simp only [evalDelta, orDefault, DeltaSpec.truthy, isDefaultScalar]
    norm_num
  · rintro ⟨u, -, -, h⟩
    simp only [evalDelta, orDefault, DeltaSpec.truthy, isDefaultScalar] at h
    by_cases hu : u > 1 / 2
    · have hu' : (2:ℝ)⁻¹ < u := by rw [← one_div]; exact hu
      simp [hu'] at h; linarith
    · have hu' : ¬ (2:ℝ)⁻¹ < u := by rw [← one_div]; exact hu
      have h2 : ¬ (2 : ℝ) = -2 := by norm_num
      simp [hu', h2] at h
  · simp only [evalDelta, orDefault, DeltaSpec.truthy, isDefaultScalar]
    norm_num

/-- ... and in integers. -/
theorem C58_scaled_integer_fails : ∃ (default : Option IntDelta) (len : ℤ),
    Spec.IntMove default true len (.orand 2) 2 20 ∧ Spec.IntMove default true len (.orand 2) 2 (-2) ∧
    ¬ Spec.IntMove default true len (.orand 2) 2 (-20) := by
  have hev : ∀ u r, evalDeltaInt (some (.scalar 2)) true 10 (some (.orand 2)) u r =
      .ok (some (if u > 1 / 2 then 20 else -2)) := by
    intro u r
    by_cases hu : u > 1 / 2
    · have hu' : (2:ℝ)⁻¹ < u := by rw [← one_div]; exact hu
      simp [evalDeltaInt, intOrDefault, intDraw, bind, Except.bind, pure, Except.pure, hu']
    · have hu' : ¬ (2:ℝ)⁻¹ < u := by rw [← one_div]; exact hu
      simp [evalDeltaInt, intOrDefault, intDraw, bind, Except.bind, pure, Except.pure, hu']
  refine ⟨some (.scalar 2), 10, ⟨3 / 4, 0, by norm_num, by norm_num, by omega, by omega, ?_⟩,
    ⟨0, 0, by norm_num, by norm_num, by omega, by omega, ?_⟩, ?_⟩
  · rw [hev, if_pos (by norm_num)]
  · rw [hev, if_neg (by norm_num)]
  · rintro ⟨u, r, -, -, -, -, h⟩
    rw [hev] at h
    by_cases hu : u > 1 / 2
    · rw [if_pos hu] at h; simp at h
    · rw [if_neg hu] at h; simp at h

/-- C58: an integer delta given explicitly is honoured exactly if it is not zero; a
delta of zero is taken as "not given" and the default moves the variable by `e`. -/
theorem C58_zero_delta_ignored (len d e : ℤ) (u : ℝ) (r : ℤ) :
    evalDeltaInt (some (.scalar e)) false len (some (.scalar d)) u r =
      .ok (some (if d = 0 then e else d)) := by
  by_cases h : d = 0
  · subst h
    simp [evalDeltaInt, intOrDefault, intDraw, bind, Except.bind, pure, Except.pure]
  · have : intOrDefault (some (.scalar d)) (some (.scalar e)) = some (.scalar d) := by
      unfold intOrDefault
      split
      · simp_all
      · simp_all
      · simp_all
    simp [evalDeltaInt, this, intDraw, bind, Except.bind, pure, Except.pure, h]

/-- C58: the same for a delta given as zero whatever the default is: as if no delta had
been given. -/
theorem C58_zero_is_default (default : Option IntDelta) (scale : Bool) (len : ℤ) (u : ℝ) (r : ℤ) :
    evalDeltaInt default scale len (some (.scalar 0)) u r = evalDeltaInt default scale len none u r := rfl

/-- Non-vacuity: `[3]` for a float variable can move by 2.5 and by -3. -/
example : Spec.FloatMove ⟨none, false, false⟩ 1 (.urand 3) (5 / 2) ∧
    Spec.FloatMove ⟨none, false, false⟩ 1 (.urand 3) (-3) :=
  ⟨((C58_uniform_partial _ _ 3 rfl (by norm_num)).1 _).mpr (by norm_num),
   ((C58_uniform_partial _ _ 3 rfl (by norm_num)).1 _).mpr (by norm_num)⟩

end Probayes
