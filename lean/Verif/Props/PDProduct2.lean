/-
C19: factors with variables sharing an axis, and with sets of one integer.
-/
import Verif.Props.PDProduct
import Verif.Props.PDCond

namespace Probayes

/-! ### Variables sharing an axis -/

/-- p(x, y) with both variables along one axis (as for joint samples). -/
noncomputable def pairPD (dx dy : List ℚ) (f : ℕ → ℝ) : PD :=
  ⟨['x', ',', 'y'], [(['x'], ['x']), (['y'], ['y'])], [],
   ⟨[(['x'], .arr [dx.length] dx), (['y'], .arr [dy.length] dy)], [(['x'], some 0), (['y'], some 0)],
    1, [dx.length, dy.length], [dx.length], dx.length, [false, false], false⟩,
   ⟨[dx.length], fun i => f (i.getD 0 0)⟩, .lin 1⟩

/-- p(z). -/
noncomputable def onePD (dz : List ℚ) (g : ℕ → ℝ) : PD :=
  ⟨['z'], [(['z'], ['z'])], [],
   ⟨[(['z'], .arr [dz.length] dz)], [(['z'], some 0)], 1, [dz.length], [dz.length], dz.length,
    [false], false⟩,
   ⟨[dz.length], fun i => g (i.getD 0 0)⟩, .lin 1⟩

/-- Whatever the values and probabilities, variables sharing an axis share one in the
product with another variable, and probabilities multiply. -/
theorem C19_shared_pair (fmt : Val → Str) (dx dy dz : List ℚ) (f g : ℕ → ℝ)
    (hxy : dx.length = dy.length) (hx : dx ≠ []) (hz : dz ≠ []) :
    ∃ r, product fmt [pairPD dx dy f, onePD dz g] = .ok (some r) ∧ r.WF fmt ∧
      r.marg.keys = [['x'], ['y'], ['z']] ∧ r.cond = [] ∧
      r.axis ['x'] = some 0 ∧ r.axis ['y'] = some 0 ∧ r.axis ['z'] = some 1 ∧
      r.values ['x'] = some (.arr [dx.length] dx) ∧ r.values ['y'] = some (.arr [dy.length] dy) ∧
      r.values ['z'] = some (.arr [dz.length] dz) ∧ r.shape = [dx.length, dz.length] ∧
      ∀ i j, i < dx.length → j < dz.length → r.at [i, j] = f i * g j := by
  have hprod : product fmt [pairPD dx dy f, onePD dz g] =
      (productGeneral fmt [pairPD dx dy f, onePD dz g] (.lin 1) false).map some :=
    product_general (productPscale_one _ _ rfl rfl)
      (show [['x'], ['y'], ['z']].Nodup by decide) rfl
  let m : Dict Str Str := [(['x'], ['x']), (['y'], ['y']), (['z'], ['z'])]
  let v : Dict Str Val := [(['x'], .arr [dx.length, 1] dx), (['y'], .arr [dy.length, 1] dy),
    (['z'], .arr [1, dz.length] dz)]
  let dm : Dict Str (Option ℕ) := [(['x'], some 0), (['y'], some 0), (['z'], some 1)]
  have hgen : ∃ q : Arr, q.shape = [dx.length, dz.length] ∧
      (∀ i j, i < dx.length → j < dz.length → q.get [i, j] = f i * g j) ∧
      productGeneral fmt [pairPD dx dy f, onePD dz g] (.lin 1) false =
        pdInit fmt (margcondStr m []) v (some dm) q (PScale.lin 1).spec := by
    set A := pairPD dx dy f with hA
    set B := onePD dz g with hB
    have e1 : [A, B].foldlM (condCheck [A, B]) [] = .ok [] := rfl
    let v0 : Dict Str Val := [(['x'], .arr [dx.length] dx), (['y'], .arr [dy.length] dy),
      (['z'], .arr [dz.length] dz)]
    have e2 : (prodKeys [A, B]).foldlM (prodValsStep [A, B]) [] = .ok v0 := rfl
    have e3 : (prodKeys [A, B]).foldlM (prodSetsStep [A, B]) v0 = .ok v0 := rfl
    have e4 : newDims [A, B] (prodKeys [A, B]) = .ok [true, false, true] := rfl
    have e5 : ((prodKeys [A, B]).zip (cumFlags 0 [true, false, true])).foldlM (prodDimsStep [A, B] 2)
        ⟨[], List.replicate 2 1, v0⟩ = .ok ⟨dm, [dy.length, dz.length], v⟩ := rfl
    have e6 : placeProb dm [dy.length, dz.length] A =
        .ok ⟨[dy.length, 1], fun j => A.prob.get (unravelIx [dx.length] (ravelIx [dy.length, 1] j))⟩ := by
      have : placeProb dm [dy.length, dz.length] A = reshape [dy.length, 1] A.prob := rfl
      rw [this, reshape, if_pos (by simp [hA, pairPD, hxy])]
      rfl
    have e7 : placeProb dm [dy.length, dz.length] B =
        .ok ⟨[1, dz.length], fun j => B.prob.get (unravelIx [dz.length] (ravelIx [1, dz.length] j))⟩ := by
      have : placeProb dm [dy.length, dz.length] B = reshape [1, dz.length] B.prob := rfl
      rw [this, reshape, if_pos (by simp [hB, onePD])]
      rfl
    set a' : Arr := ⟨[dy.length, 1], fun j => A.prob.get (unravelIx [dx.length] (ravelIx [dy.length, 1] j))⟩
    set b' : Arr := ⟨[1, dz.length], fun j => B.prob.get (unravelIx [dz.length] (ravelIx [1, dz.length] j))⟩
    have hb : bshape [dy.length, 1] [1, dz.length] = .ok [dx.length, dz.length] := by
      rw [hxy]
      by_cases h1 : dy.length = 1
      · by_cases h2 : 1 = dz.length
        · simp [bshape, bshapeSame, h1, ← h2, bind, Except.bind, pure, Except.pure]
        · simp [bshape, bshapeSame, h1, h2, bind, Except.bind, pure, Except.pure]
      · by_cases h2 : 1 = dz.length
        · simp [bshape, bshapeSame, h1, ← h2, bind, Except.bind, pure, Except.pure]
        · simp [bshape, bshapeSame, h1, h2, bind, Except.bind, pure, Except.pure]
    refine ⟨⟨[dx.length, dz.length], fun j => a'.bget j * b'.bget j⟩, rfl, ?_, ?_⟩
    · intro i j hi hj
      have ha : a'.bget [i, j] = f i := by
        simp only [a', Arr.bget, hA, pairPD]
        by_cases h1 : dy.length = 1
        · have : i = 0 := by omega
          simp [h1, this, ravelIx, unravelIx]
        · simp [h1, ravelIx, unravelIx]
      have hb' : b'.bget [i, j] = g j := by
        simp only [b', Arr.bget, hB, onePD]
        by_cases h1 : dz.length = 1
        · have : j = 0 := by omega
          simp [h1, this, ravelIx, unravelIx]
        · simp [h1, ravelIx, unravelIx]
      show a'.bget [i, j] * b'.bget [i, j] = _
      rw [ha, hb']
    · have e8 : prodRuleArr [a', b'] [.lin 1, .lin 1] =
          .ok ⟨[dx.length, dz.length], fun j => a'.bget j * b'.bget j⟩ := by
        simp only [prodRuleArr, applyProdArr, List.foldlM_cons, List.foldlM_nil, Arr.zip]
        simp [PScale.iscomplex, a', b', hb, bind, Except.bind, pure, Except.pure]
      have e9 : [A, B].mapM (placeProb dm [dy.length, dz.length]) = .ok [a', b'] := by
        simp [e6, e7, bind, Except.bind, pure, Except.pure]
      unfold productGeneral
      simp only [e1, e2, e3, e4, bind, Except.bind]
      rw [show (cumFlags 0 [true, false, true]).getLast? = some 2 from rfl]
      simp only [Bool.false_eq_true, false_and, if_false, e5, e9]
      rw [show [A, B].map PD.pscale = [.lin 1, .lin 1] from rfl, e8]
      rfl
  obtain ⟨q, q1, q2, q3⟩ := hgen
  have hxl := List.length_pos_iff.mpr hx
  have hzl := List.length_pos_iff.mpr hz
  have hB : BuildArgs fmt m [] v dm [dx.length, dz.length] := by
    have hget : ∀ k w, Dict.get? v k = some w → (k = ['x'] ∧ w = .arr [dx.length, 1] dx) ∨
        (k = ['y'] ∧ w = .arr [dy.length, 1] dy) ∨ (k = ['z'] ∧ w = .arr [1, dz.length] dz) := by
      intro k w hw
      have := Dict.get?_mem hw
      simpa [v] using this
    refine ⟨by simp [v], ?_, ?_, by decide, by decide, by simp [m], ?_, ?_, ?_, ?_, ?_, ?_⟩
    · show [['x'], ['y'], ['z']].Nodup; decide
    · show ∀ k ∈ [['x'], ['y'], ['z']], k ∉ disallowed; decide
    · intro k; show k ∈ [['x'], ['y'], ['z']] ↔ k ∈ [['x'], ['y'], ['z']] ∨ k ∈ []; simp
    · show [['x'], ['y'], ['z']].Nodup; decide
    · intro k hk; exact hk
    · intro k w hw hs
      rcases hget k w hw with ⟨rfl, rfl⟩ | ⟨rfl, rfl⟩ | ⟨rfl, rfl⟩ <;> simp [Val.issingleton] at hs
    · intro k w hw hs
      rcases hget k w hw with ⟨rfl, rfl⟩ | ⟨rfl, rfl⟩ | ⟨rfl, rfl⟩
      · exact ⟨_, _, 0, rfl, by simp; omega, rfl, rfl⟩
      · exact ⟨_, _, 0, rfl, by simp; omega, rfl, by simp [hxy]⟩
      · exact ⟨_, _, 1, rfl, by simp; omega, rfl, rfl⟩
    · intro a ha
      rcases a with _ | _ | a
      · exact ⟨['x'], rfl⟩
      · exact ⟨['z'], rfl⟩
      · simp at ha
  obtain ⟨r, i1, i2, i3, i4, i5, i6, i7, i8, i9⟩ := pdInit_ok hB q q1 (PScale.lin 1).spec (.lin 1) lin1_stable
  refine ⟨r, by rw [hprod, q3, i1]; rfl, i2, by rw [i3]; rfl, i4, by rw [i6]; rfl, by rw [i6]; rfl,
    by rw [i6]; rfl, ?_, ?_, ?_, i7, ?_⟩
  · rw [hB.values i5]; rfl
  · rw [hB.values i5]; rfl
  · rw [hB.values i5]; rfl
  · intro i j hi hj
    rw [PD.at, i8, i9, q2 i j hi hj]
    simp [Spec.value, Spec.factor]

/-- The hypotheses are met. -/
example (fmt : Val → Str) : ∃ r, product fmt [pairPD [1, 2] [3, 3] (fun _ => 1 / 2), onePD [5, 6, 7] (fun _ => 1 / 3)] =
    .ok (some r) ∧ r.shape = [2, 3] := by
  obtain ⟨r, h1, _, _, _, _, _, _, _, _, _, h2, _⟩ := C19_shared_pair fmt [1, 2] [3, 3] [5, 6, 7]
    (fun _ => 1 / 2) (fun _ => 1 / 3) rfl (by simp) (by simp)
  exact ⟨r, h1, h2⟩

/-- p(z, x, y) with x and y along one axis, z along another. -/
noncomputable def tailPD : PD :=
  ⟨['z', ',', 'x', ',', 'y'], [(['z'], ['z']), (['x'], ['x']), (['y'], ['y'])], [],
   ⟨[(['z'], .arr [2, 1] [3, 4]), (['x'], .arr [1, 2] [1, 2]), (['y'], .arr [1, 2] [5, 6])],
    [(['z'], some 0), (['x'], some 1), (['y'], some 1)],
    2, [2, 2, 2], [2, 2], 4, [false, false, false], false⟩,
   ⟨[2, 2], fun _ => 1 / 4⟩, .lin 1⟩

/-- p(x, z, y) with x and y along one axis, z along another. -/
noncomputable def splitPD : PD :=
  ⟨['x', ',', 'z', ',', 'y'], [(['x'], ['x']), (['z'], ['z']), (['y'], ['y'])], [],
   ⟨[(['x'], .arr [2, 1] [1, 2]), (['z'], .arr [1, 2] [1, 2]), (['y'], .arr [2, 1] [5, 6])],
    [(['x'], some 0), (['z'], some 1), (['y'], some 0)],
    2, [2, 2, 2], [2, 2], 4, [false, false, false], false⟩,
   ⟨[2, 2], fun _ => 1 / 4⟩, .lin 1⟩

theorem sharedFactors (a : PD) (ha : a = tailPD ∨ a = splitPD) : Spec.Factors (fun _ => []) [a, condPD 'w' 'x'] := by
  have hwf : a.WF (fun _ => []) := by
    rcases ha with rfl | rfl <;> exact PD.wf_of_check (by decide) rfl lin1_stable
  have hwf' : (condPD 'w' 'x').WF (fun _ => []) := PD.wf_of_check (by decide) rfl lin1_stable
  refine ⟨le_refl 2, ?_, ?_, ?_, ?_, ?_, ?_, ?_⟩
  · simp only [List.mem_cons, List.not_mem_nil, or_false]
    rintro b (rfl | rfl)
    · exact hwf
    · exact hwf'
  · simp only [List.mem_cons, List.not_mem_nil, or_false]
    rintro b (rfl | rfl)
    · rcases ha with rfl | rfl <;> (show ∀ n ∈ [2, 2], 0 < n; decide)
    · show ∀ n ∈ [2, 2], 0 < n; decide
  · simp only [List.mem_cons, List.not_mem_nil, or_false]
    rintro b (rfl | rfl)
    · rcases ha with rfl | rfl <;> simp [tailPD, splitPD]
    · simp [condPD]
  all_goals rcases ha with rfl | rfl <;> decide

/-- C19 fails silently for variables sharing an axis when another variable of the factor
precedes them: p(z, x, y) p(w|x) gives x and y separate axes, with entries for pairs of
values of x and y that do not occur together, and a total of two. -/
theorem C19_shared_wrong : Spec.Factors (fun _ => []) [tailPD, condPD 'w' 'x'] ∧
    ∃ r, product (fun _ => []) [tailPD, condPD 'w' 'x'] = .ok (some r) ∧ r.shape = [2, 2, 2, 2] ∧
      tailPD.axis ['x'] = tailPD.axis ['y'] ∧ r.axis ['x'] ≠ r.axis ['y'] ∧
      ∑ i ∈ idx tailPD.shape, tailPD.at i = 1 ∧ (∀ n < 2, (condPD 'w' 'x').at [0, n] + (condPD 'w' 'x').at [1, n] = 1) ∧
      ∑ i ∈ idx r.shape, r.at i = 2 ∧ ¬ Spec.Product [tailPD, condPD 'w' 'x'] r := by
  refine ⟨sharedFactors _ (Or.inl rfl), ?_⟩
  let Q : Arr := ⟨[2, 2, 2, 2], fun _ => (1 / 4 : ℝ) * (1 / 2)⟩
  let r : PD := ⟨['z', ',', 'x', ',', 'y', ',', 'w'],
    [(['z'], ['z']), (['x'], ['x']), (['y'], ['y']), (['w'], ['w'])], [],
    ⟨[(['z'], .arr [2, 1, 1, 1] [3, 4]), (['x'], .arr [1, 2, 1, 1] [1, 2]),
      (['y'], .arr [1, 1, 2, 1] [5, 6]), (['w'], .arr [1, 1, 1, 2] [1, 2])],
     [(['z'], some 0), (['x'], some 1), (['y'], some 2), (['w'], some 3)],
     4, [2, 2, 2, 2], [2, 2, 2, 2], 16, [false, false, false, false], false⟩, Q, .lin 1⟩
  have hok : product (fun _ => []) [tailPD, condPD 'w' 'x'] = .ok (some r) := by
    rw [product_general (productPscale_one tailPD (condPD 'w' 'x') rfl rfl) (by decide) rfl]
    have hg : productGeneral (fun _ => []) [tailPD, condPD 'w' 'x'] (.lin 1) false =
        pdInit (fun _ => []) (productName [tailPD, condPD 'w' 'x']) r.vals (some r.dims) Q
          (PScale.lin 1).spec := by
      have e9 : [tailPD, condPD 'w' 'x'].mapM (placeProb r.dims [2, 2, 2, 2]) =
          .ok [⟨[2, 1, 2, 1], fun _ => 1 / 4⟩, ⟨[1, 2, 1, 2], fun _ => 1 / 2⟩] := by
        have e6 : placeProb r.dims [2, 2, 2, 2] tailPD = .ok ⟨[2, 1, 2, 1], fun _ => 1 / 4⟩ := rfl
        have e7 : placeProb r.dims [2, 2, 2, 2] (condPD 'w' 'x') = .ok ⟨[1, 2, 1, 2], fun _ => 1 / 2⟩ := rfl
        simp [e6, e7, bind, Except.bind, pure, Except.pure]
      let v0 : Dict Str Val := tailPD.vals ++ [(['w'], .arr [2, 1] [1, 2])]
      obtain ⟨_, e1⟩ := condCheck_ok (sharedFactors tailPD (Or.inl rfl))
      have e2 : (prodKeys [tailPD, condPD 'w' 'x']).foldlM (prodValsStep [tailPD, condPD 'w' 'x']) [] =
        .ok v0 := rfl
      have e3 : (prodKeys [tailPD, condPD 'w' 'x']).foldlM (prodSetsStep [tailPD, condPD 'w' 'x'])
        v0 = .ok v0 := rfl
      have e4 : newDims [tailPD, condPD 'w' 'x'] (prodKeys [tailPD, condPD 'w' 'x']) = .ok [true, true, true, true] := rfl
      have e5 : ((prodKeys [tailPD, condPD 'w' 'x']).zip (cumFlags 0 [true, true, true, true])).foldlM
          (prodDimsStep [tailPD, condPD 'w' 'x'] 4) ⟨[], List.replicate 4 1, v0⟩ =
          .ok ⟨r.dims, [2, 2, 2, 2], r.vals⟩ := rfl
      have e8 : prodRuleArr [⟨[2, 1, 2, 1], fun _ => 1 / 4⟩, ⟨[1, 2, 1, 2], fun _ => 1 / 2⟩]
          ([tailPD, condPD 'w' 'x'].map PD.pscale) = .ok Q := rfl
      unfold productGeneral
      simp only [e1, e2, e3, e4, bind, Except.bind]
      rw [show (cumFlags 0 [true, true, true, true]).getLast? = some 4 from rfl]
      simp only [Bool.false_eq_true, false_and, if_false, e5, e9, e8]
    rw [hg, pdInit_eval (mc := (r.marg, [])) (dist := r.dist) (mc' := (r.marg, r.cond)) (p := .lin 1)
      rfl rfl rfl lin1_stable rfl]
    rfl
  refine ⟨r, hok, rfl, rfl, by decide, ?_, ?_, ?_, ?_⟩
  · simp only [PD.at, tailPD, Spec.value, Spec.factor, Finset.sum_const, nsmul_eq_mul]
    rw [show (idx (PD.shape _)).card = 4 from rfl]; norm_num
  · intro n _
    simp only [PD.at, condPD, Spec.value, Spec.factor]; norm_num
  · simp only [PD.at, r, Q, Spec.value, Spec.factor, Finset.sum_const, nsmul_eq_mul]
    rw [show (idx (PD.shape _)).card = 16 from rfl]; norm_num
  · intro h
    obtain ⟨i, ⟨_, hag⟩, _⟩ := h.index [0, 0, 1, 0] (mem_idx.mpr (.cons (by decide) (.cons (by decide)
      (.cons (by decide) (.cons (by decide) .nil))))) tailPD (by simp)
    have h1 := hag ['x'] 1 1 rfl rfl
    have h2 := hag ['y'] 1 2 rfl rfl
    rw [h1] at h2
    simp at h2

/-- With another variable in between the product is refused. -/
theorem C19_shared_raises : Spec.Factors (fun _ => []) [splitPD, condPD 'w' 'x'] ∧
    product (fun _ => []) [splitPD, condPD 'w' 'x'] = .error .value := by
  refine ⟨sharedFactors _ (Or.inr rfl), ?_⟩
  rw [product_general (productPscale_one splitPD (condPD 'w' 'x') rfl rfl) (by decide) rfl]
  let v0 : Dict Str Val := splitPD.vals ++ [(['w'], .arr [2, 1] [1, 2])]
  obtain ⟨_, e1⟩ := condCheck_ok (sharedFactors splitPD (Or.inr rfl))
  have e2 : (prodKeys [splitPD, condPD 'w' 'x']).foldlM (prodValsStep [splitPD, condPD 'w' 'x']) [] =
    .ok v0 := rfl
  have e3 : (prodKeys [splitPD, condPD 'w' 'x']).foldlM (prodSetsStep [splitPD, condPD 'w' 'x']) v0 =
    .ok v0 := rfl
  have e4 : newDims [splitPD, condPD 'w' 'x'] (prodKeys [splitPD, condPD 'w' 'x']) =
    .ok [true, true, false, true] := rfl
  have e5 : ∃ v, ((prodKeys [splitPD, condPD 'w' 'x']).zip (cumFlags 0 [true, true, false, true])).foldlM
      (prodDimsStep [splitPD, condPD 'w' 'x'] 3) ⟨[], List.replicate 3 1, v0⟩ =
      .ok ⟨[(['x'], some 0), (['z'], some 1), (['y'], some 1), (['w'], some 2)], [2, 2, 2], v⟩ := ⟨_, rfl⟩
  obtain ⟨v, e5⟩ := e5
  have e6 : placeProb [(['x'], some 0), (['z'], some 1), (['y'], some 1), (['w'], some 2)] [2, 2, 2] splitPD =
      .error .value := rfl
  unfold productGeneral
  simp only [e1, e2, e3, e4, bind, Except.bind]
  rw [show (cumFlags 0 [true, true, false, true]).getLast? = some 3 from rfl]
  simp only [Bool.false_eq_true, false_and, if_false, e5, List.mapM_cons, e6, bind, Except.bind]
  rfl

end Probayes
