/-
Further statements of C104, C105 and C106, found missing by editing the model.
-/
import Verif.Props.IntDelta
import Verif.Props.RVDraw

namespace Probayes

/-- C105: values of a variable without type are returned as they are. -/
theorem C105_untyped (v : Held) : revtype v none = .ok v := rfl

/-- C106: a delta of zero asks for the default of the variable, as none does. -/
theorem C106_zero (x : IntVar) (v : ℤ) (bound : Option Bool) (u : ℝ) :
    x.apply v (some (.scalar 0)) bound u = x.apply v none bound u := by
  simp [IntVar.apply, IntVar.amount, anyOrDefault]

/-- C106: the default is what is asked for if nothing is. -/
theorem C106_default (x : IntVar) (v : ℤ) (d : AnyDelta) (hd : x.delta = some d) (h0 : d ≠ .scalar 0)
    (bound : Option Bool) (u : ℝ) : x.apply v none bound u = x.apply v (some d) bound u := by
  cases d with
  | scalar e =>
    have : e ≠ 0 := fun h => h0 (by rw [h])
    simp [IntVar.apply, IntVar.amount, anyOrDefault, hd, this]
  | orand e => simp [IntVar.apply, IntVar.amount, anyOrDefault, hd]

/-- C106: a delta whose sign is drawn is multiplied by the length of the variable only if the sign
drawn makes it the default. -/
theorem C106_scaled (x : IntVar) (v : ℤ) (d : ℚ) (hd : d ≠ 0) (hx : x.delta = some (.scalar d)) (hs : x.scale = true)
    (u : ℝ) : Spec.Rounds (x.apply v (some (.orand d)) (some false) u)
      (if 1 / 2 < u then v + d * x.len else v - d) := by
  have hr : ∀ e : ℚ, Spec.Rounds (intSum v e) (v + e) := fun e => by rw [intSum_eq]; exact trunc_rounds _
  have hne : d ≠ -d := fun h => hd (by linarith)
  by_cases h : 1 / 2 < u
  · have h' : u > 1 / 2 := h
    simp only [IntVar.apply, IntVar.amount, anyOrDefault, if_pos h', hx, hs, and_self, if_true, Option.getD_some,
      Bool.false_eq_true, if_false, if_pos h]
    exact hr _
  · have h' : ¬ u > 1 / 2 := h
    have hn : ¬ (some (AnyDelta.scalar d) = some (AnyDelta.scalar (-d)) ∧ True) := by
      rintro ⟨h1, -⟩
      exact hne (by injection h1 with h1; injection h1)
    simp only [IntVar.apply, IntVar.amount, anyOrDefault, if_neg h', hx, hs, eq_self_iff_true, if_neg hn, Option.getD_some,
      Bool.false_eq_true, if_false, if_neg h, sub_eq_add_neg]
    exact hr _

/-- Without scaling, and for other defaults, it is as drawn. -/
theorem C106_unscaled (x : IntVar) (v : ℤ) (d : ℚ) (hx : x.scale = false ∨ (x.delta ≠ some (.scalar d) ∧
    x.delta ≠ some (.scalar (-d)))) (u : ℝ) : Spec.Rounds (x.apply v (some (.orand d)) (some false) u)
      (if 1 / 2 < u then v + d else v - d) := by
  have hr : ∀ e : ℚ, Spec.Rounds (intSum v e) (v + e) := fun e => by rw [intSum_eq]; exact trunc_rounds _
  by_cases h : 1 / 2 < u
  · have h' : u > 1 / 2 := h
    have hn : ¬ (x.delta = some (.scalar d) ∧ x.scale = true) := by
      rintro ⟨h1, h2⟩
      rcases hx with hx | hx
      · simp [h2] at hx
      · exact hx.1 h1
    simp only [IntVar.apply, IntVar.amount, anyOrDefault, if_pos h', if_neg hn, Option.getD_some,
      Bool.false_eq_true, if_false, if_pos h]
    exact hr _
  · have h' : ¬ u > 1 / 2 := h
    have hn : ¬ (x.delta = some (.scalar (-d)) ∧ x.scale = true) := by
      rintro ⟨h1, h2⟩
      rcases hx with hx | hx
      · simp [h2] at hx
      · exact hx.2 h1
    simp only [IntVar.apply, IntVar.amount, anyOrDefault, if_neg h', if_neg hn, Option.getD_some,
      Bool.false_eq_true, if_false, if_neg h, sub_eq_add_neg]
    exact hr _

/-- C106: each value of an array is moved as it would be alone, with the one draw for all. -/
theorem C106_each (x : IntVar) (vs : List ℤ) (delta : Option AnyDelta) (bound : Option Bool) (u : ℝ) (i : ℕ) :
    (x.applyAll vs delta bound u)[i]? = vs[i]?.map fun v => x.apply v delta bound u := by
  unfold IntVar.applyAll IntVar.apply
  cases h : x.amount delta u with
  | none => simp
  | some d => simp

/-- C106: bounded moves of arrays stay within the limits. -/
theorem C106_array_bounded (x : IntVar) (vs : List ℤ) (delta : Option AnyDelta) (u : ℝ)
    (h : ∀ v ∈ vs, x.lo ≤ v ∧ v ≤ x.hi) : ∀ w ∈ x.applyAll vs delta (some true) u, x.lo ≤ w ∧ w ≤ x.hi := by
  intro w hw
  obtain ⟨i, hi⟩ := List.mem_iff_getElem?.1 hw
  rw [C106_each] at hi
  cases hv : vs[i]? with
  | none => rw [hv] at hi; simp at hi
  | some v =>
    rw [hv] at hi
    simp only [Option.map_some, Option.some.injEq] at hi
    rw [← hi]
    exact C106_bounded x v delta u (h v (List.mem_iff_getElem?.2 ⟨i, hv⟩))

/-- Non-vacuity: an integer variable of four values that moves by one, scaled. -/
example : Spec.Rounds (IntVar.apply ⟨some (.scalar 1), true, false, 4, 0, 3⟩ 2 (some (.orand 1)) (some false) (3 / 4)) 6 := by
  have := C106_scaled ⟨some (.scalar 1), true, false, 4, 0, 3⟩ 2 1 one_ne_zero rfl rfl (3 / 4)
  rw [if_pos (by norm_num)] at this
  norm_num at this
  exact this

theorem takeIdx_all {α : Type} (vset : List α) (d : α) : ∀ idx : List ℕ, (∀ i ∈ idx, i < vset.length) →
    takeIdx vset idx = .ok (idx.map fun i => vset.getD i d) := by
  intro idx
  induction idx with
  | nil => intro _; rfl
  | cons i idx ih =>
    intro h
    have hi := h i (by simp)
    have := ih fun j hj => h j (by simp [hj])
    simp_all [takeIdx, List.mapM_cons, Bind.bind, Except.bind, Pure.pure, Except.pure, List.getD_eq_getElem?_getD]

/-- C104: whatever the bias, `{n}` with a positive number is no draw: it gives the values in turn, from
the first one. -/
theorem C104_counted (s : RVState) (hne : s.vset ≠ []) (coin : ℝ → ℕ → Bool) (n : ℕ) (hn : 0 < n) (r : ℕ)
    (perm : List ℕ) : s.evaluate coin (.count n) r perm =
      .ok (.array ((List.range n).map fun i => s.vset.getD (i % s.vset.length) 0)) := by
  have hl : 0 < s.vset.length := List.length_pos_of_ne_nil hne
  have h1 : s.toDRV.evaluate (.count n) r perm =
      .ok (.array ((List.range n).map fun i => s.vset.getD (i % s.vset.length) 0)) := by
    have h2 : takeIdx s.toDRV.vset ((List.range n).map (· % lengthD false s.toDRV.vset)) =
        .ok ((List.range n).map fun i => s.vset.getD (i % s.vset.length) 0) := by
      rw [takeIdx_all s.toDRV.vset 0]
      · rw [List.map_map]; rfl
      · intro i hi
        obtain ⟨j, -, rfl⟩ := List.mem_map.1 hi
        exact Nat.mod_lt _ hl
    have h3 : ¬ ((n : ℤ) = 0) := by omega
    have h4 : (0 : ℤ) < n := by omega
    simp only [DRV.evaluate, evaluateD, if_neg h3, if_pos h4, Int.natAbs_natCast, h2, Bind.bind, Except.bind,
      Pure.pure, Except.pure]
  unfold RVState.evaluate
  cases s.drawBias with
  | none => exact h1
  | some b =>
    have : ¬ ((n : ℤ) ≤ 0) := by omega
    simp only [if_neg this]
    exact h1

end Probayes
