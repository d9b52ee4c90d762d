/-
Lemmas on ordinary Monte Carlo by joint random samples (Model/OMC.lean).
-/
import Verif.Model.OMC
import Verif.Props.PDProduct2
import Verif.Props.PDExpt

namespace Probayes

/-- The marginal p(x, y) of joint samples. -/
noncomputable def omcMarg (n : ℕ) (xs ys : List ℚ) (q : Arr) : PD :=
  ⟨['x', '=', '[', ']', ',', 'y', '=', '[', ']'], [(['x'], ['x', '=', '[', ']']), (['y'], ['y', '=', '[', ']'])], [],
   ⟨[(['x'], .arr [n] xs), (['y'], .arr [n] ys)], [(['x'], some 0), (['y'], some 0)],
    1, [n, n], [n], n, [false, false], false⟩, q, .lin 1⟩

/-- The conditional p(o | x, y) with both values of o. -/
noncomputable def omcCond (n : ℕ) (xs ys : List ℚ) (q : Arr) : PD :=
  ⟨['o', '|', 'x', '=', '[', ']', ',', 'y', '=', '[', ']'], [(['o'], ['o'])], [(['x'], ['x', '=', '[', ']']), (['y'], ['y', '=', '[', ']'])],
   ⟨[(['o'], .arr [2, 1] [0, 1]), (['x'], .arr [1, n] xs), (['y'], .arr [1, n] ys)],
    [(['o'], some 0), (['x'], some 1), (['y'], some 1)],
    2, [2, n, n], [2, n], 2 * n, [false, false, false], false⟩, q, .lin 1⟩

/-- The conditional p(o | x, y) with one value of o. -/
noncomputable def omcCond1 (fmt : Val → Str) (n : ℕ) (o : ℚ) (xs ys : List ℚ) (q : Arr) : PD :=
  ⟨margcondStr [(['o'], eqText fmt ['o'] (.scalar o))]
     [(['x'], ['x', '=', '[', ']']), (['y'], ['y', '=', '[', ']'])], [(['o'], eqText fmt ['o'] (.scalar o))],
   [(['x'], ['x', '=', '[', ']']), (['y'], ['y', '=', '[', ']'])],
   ⟨[(['o'], .scalar o), (['x'], .arr [n] xs), (['y'], .arr [n] ys)],
    [(['o'], none), (['x'], some 0), (['y'], some 0)],
    1, [n, n], [n], n, [true, false, false], false⟩, q, .lin 1⟩

theorem dimsStep_arr (st : AxState) (k : Str) (s : List ℕ) (data : List ℚ) (a : ℕ)
    (hs : s.isEmpty = false) (hl : data.length = s.foldl max 0) (hg : Dict.get? st.dims k = some (some a)) :
    dimsStep false st (k, .arr s data) = .ok (dimsPlace { st with count := st.count + 1 } k data a) := by
  unfold dimsStep
  rw [if_neg (by simp [Val.issingleton, hs])]
  unfold dimsArray
  simp only [hg]
  rw [if_neg (by simpa using hl)]
  rfl

theorem omc_pdInit (fmt : Val → Str) (n : ℕ) (hn : 0 < n) (xs ys : List ℚ) (hx : xs.length = n)
    (hy : ys.length = n) (q : Arr) (hq : q.shape = [2, n]) :
    pdInit fmt ['o', '|', 'x', '=', '[', ']', ',', 'y', '=', '[', ']']
      [(['o'], .arr [2, 1] [0, 1]), (['x'], .arr [1, n] xs), (['y'], .arr [1, n] ys)]
      (some [(['o'], some 0), (['x'], some 1), (['y'], some 1)]) q (PScale.lin 1).spec =
      .ok (omcCond n xs ys q) := by
  have h1 : [1, n].foldl max 0 = n := by simp; omega
  have e2 : distDims [(['o'], .arr [2, 1] [0, 1]), (['x'], .arr [1, n] xs), (['y'], .arr [1, n] ys)]
      (some [(['o'], some 0), (['x'], some 1), (['y'], some 1)]) = .ok (omcCond n xs ys q).dist := by
    have : distDims [(['o'], .arr [2, 1] [0, 1]), (['x'], .arr [1, n] xs), (['y'], .arr [1, n] ys)]
      (some [(['o'], some 0), (['x'], some 1), (['y'], some 1)]) = (do
        let st ← [(['o'], .arr [2, 1] [0, 1]), (['x'], .arr [1, n] xs), (['y'], .arr [1, n] ys)].foldlM
          (dimsStep false) ⟨[], [(['o'], some 0), (['x'], some 1), (['y'], some 1)], [none, none], 2, 0, []⟩
        match st.shape.mapM id with
        | none => .error .type
        | some shape => return ⟨st.vals, st.dims, st.ndim, st.sizes, shape, shape.prod,
            [false, false, false], false⟩) := rfl
    rw [this, List.foldlM_cons, dimsStep_arr _ _ _ _ 0 rfl rfl rfl]
    simp only [bind, Except.bind]
    rw [List.foldlM_cons, dimsStep_arr _ _ _ _ 1 rfl (by rw [hx, h1]) rfl]
    simp only [bind, Except.bind]
    rw [List.foldlM_cons, dimsStep_arr _ _ _ _ 1 rfl (by rw [hy, h1]) rfl]
    simp only [bind, Except.bind, List.foldlM_nil, pure, Except.pure]
    simp [dimsPlace, hx, hy, omcCond, axisShape]
  have e1 : strMargcond ['o', '|', 'x', '=', '[', ']', ',', 'y', '=', '[', ']'] = .ok ([(['o'], ['o'])],
    [(['x'], ['x', '=', '[', ']']), (['y'], ['y', '=', '[', ']'])]) := rfl
  have e3 : probOK (omcCond n xs ys q).dist q = true := by
    simp [probOK, omcCond, Arr.isscalar, hq]
  unfold pdInit
  rw [e1, e2]
  simp only [bind, Except.bind]
  rw [show (omcCond n xs ys q).dist.vals.foldlM (nameStep fmt) ([(['o'], ['o'])],
    [(['x'], ['x', '=', '[', ']']), (['y'], ['y', '=', '[', ']'])]) = .ok ([(['o'], ['o'])],
    [(['x'], ['x', '=', '[', ']']), (['y'], ['y', '=', '[', ']'])]) from rfl]
  simp only [lin1_stable, e3, if_true]
  rfl

theorem omc_bshape (n : ℕ) : bshape [2, 1] [1, n] = .ok [2, n] := by
  by_cases h : 1 = n
  · simp [bshape, bshapeSame, ← h, bind, Except.bind, pure, Except.pure]
  · simp [bshape, bshapeSame, h, bind, Except.bind, pure, Except.pure]

theorem bshape_self (s : List ℕ) : bshape s s = .ok s := by
  have : ∀ s : List ℕ, bshapeSame s s = .ok s := by
    intro s
    induction s with
    | nil => rfl
    | cons a s ih => simp [bshapeSame, ih, bind, Except.bind, pure, Except.pure]
  simp [bshape, this]

/-- One if the sample lies in the region, zero otherwise. -/
noncomputable def omcHit (region : ℝ → ℝ → Bool) (xs ys : List ℚ) (k : ℕ) : ℝ :=
  if region ((xs.getD k 0 : ℚ) : ℝ) ((ys.getD k 0 : ℚ) : ℝ) then 1 else 0

theorem regionProb_both (region : ℝ → ℝ → Bool) (n : ℕ) (xs ys : List ℚ)
    (dims : Dict Str (Option ℕ)) :
    ∃ q, regionProb region [(['o'], ⟨.array [0, 1], [2, 1]⟩), (['x'], ⟨.array xs, [1, n]⟩),
        (['y'], ⟨.array ys, [1, n]⟩)] dims = .ok q ∧ q.shape = [2, n] ∧
      ∀ i k, i < 2 → k < n → q.get [i, k] = if (i : ℝ) = omcHit region xs ys k then 1 else 0 := by
  set X : Arr := valArr [1, n] xs
  set Y : Arr := valArr [1, n] ys
  set O : Arr := valArr [2, 1] [0, 1]
  set C : Arr := ⟨[1, n], fun j => if region (X.bget j) (Y.bget j) then 1 else 0⟩
  refine ⟨⟨[2, n], fun j => if O.bget j = C.bget j then 1 else 0⟩, ?_, rfl, ?_⟩
  · have h1 : Arr.zip (fun a b => if region a b then 1 else 0) X Y = .ok C := by
      unfold Arr.zip
      rw [show X.shape = [1, n] from rfl, show Y.shape = [1, n] from rfl, bshape_self]
      rfl
    have h2 : Arr.zip (fun a b => if a = b then 1 else 0) O C =
        .ok ⟨[2, n], fun j => if O.bget j = C.bget j then 1 else 0⟩ := by
      unfold Arr.zip
      rw [show O.shape = [2, 1] from rfl, show C.shape = [1, n] from rfl, omc_bshape]
      rfl
    have h3 : regionProb region [(['o'], ⟨.array [0, 1], [2, 1]⟩), (['x'], ⟨.array xs, [1, n]⟩),
        (['y'], ⟨.array ys, [1, n]⟩)] dims = (do
          let c ← Arr.zip (fun a b => if region a b then 1 else 0) X Y
          Arr.zip (fun a b => if a = b then 1 else 0) O c) := rfl
    rw [h3, h1]
    simp only [bind, Except.bind]
    rw [h2]
  · intro i k hi hk
    have hO : O.bget [i, k] = i := by
      have : i = 0 ∨ i = 1 := by omega
      rcases this with rfl | rfl <;> simp [O, Arr.bget, valArr, ravelIx]
    have hX : ∀ zs : List ℚ, (valArr [1, n] zs).bget [0, k] = ((zs.getD k 0 : ℚ) : ℝ) := by
      intro zs
      by_cases h1 : n = 1
      · have : k = 0 := by omega
        simp [Arr.bget, valArr, ravelIx, h1, this]
      · simp [Arr.bget, valArr, ravelIx, h1]
    have hC : C.bget [i, k] = omcHit region xs ys k := by
      by_cases h1 : n = 1
      · have : k = 0 := by omega
        subst this
        simp [C, Arr.bget, h1, omcHit, X, Y, valArr, ravelIx]
      · have : C.bget [i, k] = C.get [0, k] := by simp [C, Arr.bget, h1]
        rw [this]
        simp only [C, X, Y, hX, omcHit]
    simp only [hO, hC]

theorem regionProb_one (region : ℝ → ℝ → Bool) (n : ℕ) (o : ℚ) (xs ys : List ℚ)
    (dims : Dict Str (Option ℕ)) :
    ∃ q, regionProb region [(['o'], ⟨.scalar o, []⟩), (['x'], ⟨.array xs, [n]⟩),
        (['y'], ⟨.array ys, [n]⟩)] dims = .ok q ∧ q.shape = [n] ∧
      ∀ k, k < n → q.get [k] = if (o : ℝ) = omcHit region xs ys k then 1 else 0 := by
  set X : Arr := valArr [n] xs
  set Y : Arr := valArr [n] ys
  set O : Arr := ⟨[], fun _ => (o : ℝ)⟩
  set C : Arr := ⟨[n], fun j => if region (X.bget j) (Y.bget j) then 1 else 0⟩
  refine ⟨⟨[n], fun j => if O.bget j = C.bget j then 1 else 0⟩, ?_, rfl, ?_⟩
  · have h1 : Arr.zip (fun a b => if region a b then 1 else 0) X Y = .ok C := by
      unfold Arr.zip
      rw [show X.shape = [n] from rfl, show Y.shape = [n] from rfl, bshape_self]
      rfl
    have h2 : Arr.zip (fun a b => if a = b then 1 else 0) O C =
        .ok ⟨[n], fun j => if O.bget j = C.bget j then 1 else 0⟩ := by
      unfold Arr.zip
      rw [show O.shape = [] from rfl, show C.shape = [n] from rfl]
      rw [show bshape [] [n] = .ok [n] by
        by_cases h : 1 = n
        · simp [bshape, bshapeSame, ← h, bind, Except.bind, pure, Except.pure]
        · simp [bshape, bshapeSame, h, bind, Except.bind, pure, Except.pure]]
      rfl
    have h3 : regionProb region [(['o'], ⟨.scalar o, []⟩), (['x'], ⟨.array xs, [n]⟩),
        (['y'], ⟨.array ys, [n]⟩)] dims = (do
          let c ← Arr.zip (fun a b => if region a b then 1 else 0) X Y
          Arr.zip (fun a b => if a = b then 1 else 0) O c) := rfl
    rw [h3, h1]
    simp only [bind, Except.bind]
    rw [h2]
  · intro k hk
    have hC : C.bget [k] = omcHit region xs ys k := by
      by_cases h1 : n = 1
      · have : k = 0 := by omega
        subst this
        simp [C, Arr.bget, h1, omcHit, X, Y, valArr, ravelIx]
      · simp [C, Arr.bget, h1, omcHit, X, Y, valArr, ravelIx]
    simp only [O, Arr.bget] at hC ⊢
    simp only [hC]

theorem omc_pdInit_one (fmt : Val → Str) (n : ℕ) (o : ℚ) (xs ys : List ℚ) (hx : xs.length = n)
    (hy : ys.length = n) (q : Arr) (hq : q.shape = [n]) :
    pdInit fmt ['o', '=', '[', ']', '|', 'x', '=', '[', ']', ',', 'y', '=', '[', ']']
      [(['o'], .scalar o), (['x'], .arr [n] xs), (['y'], .arr [n] ys)]
      (some [(['o'], none), (['x'], some 0), (['y'], some 0)]) q (PScale.lin 1).spec =
      .ok (omcCond1 fmt n o xs ys q) := by
  have h1 : [n].foldl max 0 = n := by simp
  have e2 : distDims [(['o'], .scalar o), (['x'], .arr [n] xs), (['y'], .arr [n] ys)]
      (some [(['o'], none), (['x'], some 0), (['y'], some 0)]) = .ok (omcCond1 fmt n o xs ys q).dist := by
    have : distDims [(['o'], .scalar o), (['x'], .arr [n] xs), (['y'], .arr [n] ys)]
      (some [(['o'], none), (['x'], some 0), (['y'], some 0)]) = (do
        let st ← [(['x'], Val.arr [n] xs), (['y'], .arr [n] ys)].foldlM
          (dimsStep false) ⟨[(['o'], .scalar o)], [(['o'], none), (['x'], some 0), (['y'], some 0)], [none], 1, 0, []⟩
        match st.shape.mapM id with
        | none => .error .type
        | some shape => return ⟨st.vals, st.dims, st.ndim, st.sizes, shape, shape.prod,
            [true, false, false], false⟩) := rfl
    rw [this, List.foldlM_cons, dimsStep_arr _ _ _ _ 0 rfl (by rw [hx, h1]) rfl]
    simp only [bind, Except.bind]
    rw [List.foldlM_cons, dimsStep_arr _ _ _ _ 0 rfl (by rw [hy, h1]) rfl]
    simp only [bind, Except.bind, List.foldlM_nil, pure, Except.pure]
    simp [dimsPlace, hx, hy, omcCond1, axisShape]
  have e1 : strMargcond ['o', '=', '[', ']', '|', 'x', '=', '[', ']', ',', 'y', '=', '[', ']'] =
    .ok ([(['o'], ['o', '=', '[', ']'])],
    [(['x'], ['x', '=', '[', ']']), (['y'], ['y', '=', '[', ']'])]) := rfl
  have e3 : probOK (omcCond1 fmt n o xs ys q).dist q = true := by
    simp [probOK, omcCond1, Arr.isscalar, hq]
  unfold pdInit
  rw [e1, e2]
  simp only [bind, Except.bind]
  rw [show (omcCond1 fmt n o xs ys q).dist.vals.foldlM (nameStep fmt) ([(['o'], ['o', '=', '[', ']'])],
    [(['x'], ['x', '=', '[', ']']), (['y'], ['y', '=', '[', ']'])]) =
      .ok ([(['o'], eqText fmt ['o'] (.scalar o))],
    [(['x'], ['x', '=', '[', ']']), (['y'], ['y', '=', '[', ']'])]) from rfl]
  simp only [lin1_stable, e3, if_true]
  rfl

theorem omc_pdInit_marg (fmt : Val → Str) (n : ℕ) (xs ys : List ℚ) (hx : xs.length = n)
    (hy : ys.length = n) (q : Arr) (hq : q.shape = [n]) :
    pdInit fmt ['x', '=', '[', ']', ',', 'y', '=', '[', ']']
      [(['x'], .arr [n] xs), (['y'], .arr [n] ys)]
      (some [(['x'], some 0), (['y'], some 0)]) q (PScale.lin 1).spec =
      .ok (omcMarg n xs ys q) := by
  have h1 : [n].foldl max 0 = n := by simp
  have e2 : distDims [(['x'], .arr [n] xs), (['y'], .arr [n] ys)]
      (some [(['x'], some 0), (['y'], some 0)]) = .ok (omcMarg n xs ys q).dist := by
    have : distDims [(['x'], .arr [n] xs), (['y'], .arr [n] ys)]
      (some [(['x'], some 0), (['y'], some 0)]) = (do
        let st ← [(['x'], Val.arr [n] xs), (['y'], .arr [n] ys)].foldlM
          (dimsStep false) ⟨[], [(['x'], some 0), (['y'], some 0)], [none], 1, 0, []⟩
        match st.shape.mapM id with
        | none => .error .type
        | some shape => return ⟨st.vals, st.dims, st.ndim, st.sizes, shape, shape.prod,
            [false, false], false⟩) := rfl
    rw [this, List.foldlM_cons, dimsStep_arr _ _ _ _ 0 rfl (by rw [hx, h1]) rfl]
    simp only [bind, Except.bind]
    rw [List.foldlM_cons, dimsStep_arr _ _ _ _ 0 rfl (by rw [hy, h1]) rfl]
    simp only [bind, Except.bind, List.foldlM_nil, pure, Except.pure]
    simp [dimsPlace, hx, hy, omcMarg, axisShape]
  have e1 : strMargcond ['x', '=', '[', ']', ',', 'y', '=', '[', ']'] =
    .ok ([(['x'], ['x', '=', '[', ']']), (['y'], ['y', '=', '[', ']'])], []) := rfl
  have e3 : probOK (omcMarg n xs ys q).dist q = true := by
    simp [probOK, omcMarg, Arr.isscalar, hq]
  unfold pdInit
  rw [e1, e2]
  simp only [bind, Except.bind]
  rw [show (omcMarg n xs ys q).dist.vals.foldlM (nameStep fmt)
    ([(['x'], ['x', '=', '[', ']']), (['y'], ['y', '=', '[', ']'])], []) =
      .ok ([(['x'], ['x', '=', '[', ']']), (['y'], ['y', '=', '[', ']'])], []) from rfl]
  simp only [lin1_stable, e3, if_true]
  rfl

/-- A continuous variable on the linear scale. -/
noncomputable def omcVar (name : Str) (draw : ℕ → ℚ) (grid : ℕ → List ℚ) (inside : ℚ → Bool) (p : ℝ) : JVar :=
  .cont ⟨name, draw, grid, inside, p, .flt 1⟩

theorem omc_call_both (fmt : Val → Str) (r : ℕ) (perm : List ℕ) (dx dy : ℕ → ℚ) (gx gy : ℕ → List ℚ)
    (ix iy : ℚ → Bool) (px py : ℝ) (region : ℝ → ℝ → Bool) (n : ℕ) (hn : 0 < n) :
    ∃ q, (omcDep (omcBool r perm) (omcVar ['x'] dx gx ix px) (omcVar ['y'] dy gy iy py) region).call fmt
        [([['x'], ['y']], .one (.count (-n))), ([['o']], .one .all)] =
        .ok (omcCond n ((List.range n).map dx) ((List.range n).map dy) q) ∧ q.shape = [2, n] ∧
      ∀ i k, i < 2 → k < n → q.get [i, k] =
        if (i : ℝ) = omcHit region ((List.range n).map dx) ((List.range n).map dy) k then 1 else 0 := by
  obtain ⟨m, rfl⟩ : ∃ m, n = m + 1 := ⟨n - 1, by omega⟩
  set xs := (List.range (m + 1)).map dx with hxs
  set ys := (List.range (m + 1)).map dy with hys
  have hx : xs.length = m + 1 := by simp [hxs]
  have hy : ys.length = m + 1 := by simp [hys]
  let es : JReqs := [([['x'], ['y']], [.count (Int.negSucc m), .count (Int.negSucc m)]), ([['o']], [.all])]
  set D := omcDep (omcBool r perm) (omcVar ['x'] dx gx ix px) (omcVar ['y'] dy gy iy py) region with hD
  have e1 : jParse D.vars [([['x'], ['y']], .one (.count (-((m + 1 : ℕ) : ℤ)))), ([['o']], .one .all)] =
      .ok es := rfl
  have e2 : jEvaluate D.vars es = .ok ([(['o'], ⟨.array [0, 1], [2, 1]⟩),
      (['x'], ⟨.array xs, [1, xs.length]⟩), (['y'], ⟨.array ys, [1, ys.length]⟩)],
      [(['o'], some 0), (['x'], some 1), (['y'], some 1)]) := rfl
  obtain ⟨q, q1, q2, q3⟩ := regionProb_both region (m + 1) xs ys [(['o'], some 0), (['x'], some 1), (['y'], some 1)]
  refine ⟨q, ?_, q2, q3⟩
  unfold JDep.call
  rw [e1]
  simp only [bind, Except.bind]
  rw [e2]
  rw [hx, hy]
  simp only
  rw [show D.prob = regionProb region from rfl, q1]
  exact omc_pdInit fmt (m + 1) hn xs ys hx hy q q2

theorem omc_call_one (fmt : Val → Str) (r : ℕ) (o : ℚ) (ho : ([0, 1] : List ℚ)[r]? = some o) (perm : List ℕ)
    (dx dy : ℕ → ℚ) (gx gy : ℕ → List ℚ)
    (ix iy : ℚ → Bool) (px py : ℝ) (region : ℝ → ℝ → Bool) (n : ℕ) (hn : 0 < n) :
    ∃ q, (omcDep (omcBool r perm) (omcVar ['x'] dx gx ix px) (omcVar ['y'] dy gy iy py) region).call fmt
        [([['x'], ['y']], .one (.count (-n)))] =
        .ok (omcCond1 fmt n o ((List.range n).map dx) ((List.range n).map dy) q) ∧ q.shape = [n] ∧
      ∀ k, k < n → q.get [k] =
        if (o : ℝ) = omcHit region ((List.range n).map dx) ((List.range n).map dy) k then 1 else 0 := by
  obtain ⟨m, rfl⟩ : ∃ m, n = m + 1 := ⟨n - 1, by omega⟩
  set xs := (List.range (m + 1)).map dx with hxs
  set ys := (List.range (m + 1)).map dy with hys
  have hx : xs.length = m + 1 := by simp [hxs]
  have hy : ys.length = m + 1 := by simp [hys]
  let es : JReqs := [([['x'], ['y']], [.count (Int.negSucc m), .count (Int.negSucc m)]), ([['o']], [.count 0])]
  set D := omcDep (omcBool r perm) (omcVar ['x'] dx gx ix px) (omcVar ['y'] dy gy iy py) region with hD
  have e1 : jParse D.vars [([['x'], ['y']], .one (.count (-((m + 1 : ℕ) : ℤ))))] = .ok es := rfl
  have e2 : jEvaluate D.vars es = .ok ([(['o'], ⟨.scalar o, []⟩),
      (['x'], ⟨.array xs, [xs.length]⟩), (['y'], ⟨.array ys, [ys.length]⟩)],
      [(['o'], none), (['x'], some 0), (['y'], some 0)]) := by
    have hr : r = 0 ∨ r = 1 := by
      rcases r with _ | _ | r
      · exact Or.inl rfl
      · exact Or.inr rfl
      · simp at ho
    rcases hr with rfl | rfl
    · simp at ho; subst ho; rfl
    · simp at ho; subst ho; rfl
  obtain ⟨q, q1, q2, q3⟩ := regionProb_one region (m + 1) o xs ys [(['o'], none), (['x'], some 0), (['y'], some 0)]
  refine ⟨q, ?_, q2, q3⟩
  unfold JDep.call
  rw [e1]
  simp only [bind, Except.bind]
  rw [e2]
  rw [hx, hy]
  simp only
  rw [show D.prob = regionProb region from rfl, q1]
  exact omc_pdInit_one fmt (m + 1) o xs ys hx hy q q2

theorem omc_cond_both (n : ℕ) (xs ys : List ℚ) (q : Arr) : (omcCond n xs ys q).jCondReq =
    .ok [([['x'], ['y']], .list [.array xs, .array ys])] := rfl

theorem omc_cond_one (fmt : Val → Str) (n : ℕ) (o : ℚ) (xs ys : List ℚ) (q : Arr) :
    (omcCond1 fmt n o xs ys q).jCondReq = .ok [([['x'], ['y']], .list [.array xs, .array ys])] := rfl

theorem omc_jCall (fmt : Val → Str) (dx dy : ℕ → ℚ) (gx gy : ℕ → List ℚ)
    (ix iy : ℚ → Bool) (px py : ℝ) (n : ℕ) (xs ys : List ℚ) (hx : xs.length = n) (hy : ys.length = n) :
    ∃ q, jCall fmt [omcVar ['x'] dx gx ix px, omcVar ['y'] dy gy iy py]
        [([['x'], ['y']], .list [.array xs, .array ys])] = .ok (omcMarg n xs ys q) ∧ q.shape = [n] ∧
      ∀ k, k < n → q.get [k] =
        (if ix (xs.getD k 0) then px else 0) * (if iy (ys.getD k 0) then py else 0) := by
  set vs := [omcVar ['x'] dx gx ix px, omcVar ['y'] dy gy iy py] with hvs
  let es : JReqs := [([['x'], ['y']], [.array xs, .array ys])]
  let vals : Dict Str Laid := [(['x'], ⟨.array xs, [xs.length]⟩), (['y'], ⟨.array ys, [ys.length]⟩)]
  have e0 : jScale vs = .ok (.lin 1) := by
    have : vs.mapM JVar.scale = .ok [.lin 1, .lin 1] := by
      simp [hvs, omcVar, JVar.scale, evalPscale_one, bind, Except.bind, pure, Except.pure]
    unfold jScale
    rw [this]
    simp [prodPscale, PScale.spec, PSpec.iscomplex, prodPscaleLin, evalPscale, probCoef, bind, Except.bind,
      pure, Except.pure]
  have e1 : jParse vs [([['x'], ['y']], .list [.array xs, .array ys])] = .ok es := rfl
  have e2 : jEvaluate vs es = .ok (vals, [(['x'], some 0), (['y'], some 0)]) := rfl
  have e3 : ∃ q, jProb vs vals = .ok q ∧ q.shape = [n] ∧ ∀ k, k < n → q.get [k] =
        (if ix (xs.getD k 0) then px else 0) * (if iy (ys.getD k 0) then py else 0) := by
    have hv : ∀ (nm : Str) (d : ℕ → ℚ) (g : ℕ → List ℚ) (i : ℚ → Bool) (p : ℝ) (zs : List ℚ),
        zs.length = n → Dict.get? vals nm = some ⟨.array zs, [zs.length]⟩ →
        ∃ a, jVarProb vals (omcVar nm d g i p) = .ok a ∧ a.shape = [n] ∧
          ∀ k, k < n → a.get [k] = if i (zs.getD k 0) then p else 0 := by
      intro nm d g i p zs hz hg
      refine ⟨⟨[n], fun j => (listArr (zs.map fun v => if i v then p else 0)).get
        (unravelIx [n] (ravelIx [n] j))⟩, ?_, rfl, ?_⟩
      · unfold jVarProb
        rw [show (omcVar nm d g i p).name = nm from rfl, hg]
        simp only [omcVar, FCont.evalProb, rvEvalProbArr, evalPscale_one, uniformProbArr, PScale.iscomplex,
          pZero, bind, Except.bind, pure, Except.pure, hz, Bool.false_eq_true, if_false]
        rw [reshape, if_pos (by simp [listArr, hz])]
        simp [listArr, hz]
      · intro k hk
        have : k < zs.length := by omega
        simp [listArr, ravelIx, unravelIx, List.getD, List.getElem?_eq_getElem this]
    obtain ⟨a, a1, a2, a3⟩ := hv ['x'] dx gx ix px xs hx rfl
    obtain ⟨b, b1, b2, b3⟩ := hv ['y'] dy gy iy py ys hy rfl
    refine ⟨⟨[n], fun j => a.bget j * b.bget j⟩, ?_, rfl, ?_⟩
    · have h1 : vs.mapM JVar.scale = .ok [.lin 1, .lin 1] := by
        simp [hvs, omcVar, JVar.scale, evalPscale_one, bind, Except.bind, pure, Except.pure]
      have h2 : vs.mapM (jVarProb vals) = .ok [a, b] := by
        simp [hvs, a1, b1, bind, Except.bind, pure, Except.pure]
      have h3 : jProb vs vals = (do
        prodRuleArr (← vs.mapM (jVarProb vals)) (← vs.mapM JVar.scale)) := rfl
      rw [h3, h1, h2]
      simp only [bind, Except.bind, prodRuleArr, applyProdArr, List.foldlM_cons, List.foldlM_nil, Arr.zip]
      simp [PScale.iscomplex, a2, b2, bshape_self, pure, Except.pure]
    · intro k hk
      have hb : ∀ c : Arr, c.shape = [n] → c.bget [k] = c.get [k] := by
        intro c hc
        by_cases h1 : n = 1
        · have : k = 0 := by omega
          simp [Arr.bget, hc, this]
        · simp [Arr.bget, hc, h1]
      simp only [hb a a2, hb b b2, a3 k hk, b3 k hk]
  obtain ⟨q, q1, q2, q3⟩ := e3
  refine ⟨q, ?_, q2, q3⟩
  unfold jCall
  rw [e0]
  simp only [bind, Except.bind, lin1_stable]
  rw [e1]
  simp only []
  rw [e2]
  simp only [q1]
  rw [← omc_pdInit_marg fmt n xs ys hx hy q q2]
  simp only [vals, hx, hy]
  rfl

/-- The product p(x, y, o) of the samples with both values of o. -/
theorem omc_product (fmt : Val → Str) (n : ℕ) (hn : 0 < n) (xs ys : List ℚ) (hx : xs.length = n)
    (hy : ys.length = n) (a b : Arr) (ha : a.shape = [n]) (hb : b.shape = [2, n]) :
    ∃ r, product fmt [omcMarg n xs ys a, omcCond n xs ys b] = .ok (some r) ∧ r.WF fmt ∧ r.Placed ∧
      r.marg.keys = [['x'], ['y'], ['o']] ∧ r.cond = [] ∧
      r.axis ['x'] = some 0 ∧ r.axis ['y'] = some 0 ∧ r.axis ['o'] = some 1 ∧
      r.values ['x'] = some (.arr [xs.length] xs) ∧ r.values ['y'] = some (.arr [ys.length] ys) ∧
      r.values ['o'] = some (.arr [2] [0, 1]) ∧ r.shape = [n, 2] ∧ r.pscale = .lin 1 ∧
      ∀ i j, i < n → j < 2 → r.prob.get [i, j] = a.get [i] * b.get [j, i] := by
  set A := omcMarg n xs ys a with hA
  set B := omcCond n xs ys b with hB
  have hprod : product fmt [A, B] = (productGeneral fmt [A, B] (.lin 1) false).map some :=
    product_general (productPscale_one _ _ rfl rfl)
      (show [['x'], ['y'], ['o']].Nodup by decide) rfl
  let m : Dict Str Str := [(['x'], ['x', '=', '[', ']']), (['y'], ['y', '=', '[', ']']), (['o'], ['o'])]
  let v : Dict Str Val := [(['x'], .arr [xs.length, 1] xs), (['y'], .arr [ys.length, 1] ys),
    (['o'], .arr [1, 2] [0, 1])]
  let dm : Dict Str (Option ℕ) := [(['x'], some 0), (['y'], some 0), (['o'], some 1)]
  have hgen : ∃ q : Arr, q.shape = [n, 2] ∧
      (∀ i j, i < n → j < 2 → q.get [i, j] = a.get [i] * b.get [j, i]) ∧
      productGeneral fmt [A, B] (.lin 1) false =
        pdInit fmt (margcondStr m []) v (some dm) q (PScale.lin 1).spec := by
    have e1 : [A, B].foldlM (condCheck [A, B]) [] = .ok [] := rfl
    let v0 : Dict Str Val := [(['x'], .arr [n] xs), (['y'], .arr [n] ys), (['o'], .arr [2, 1] [0, 1])]
    have e2 : (prodKeys [A, B]).foldlM (prodValsStep [A, B]) [] = .ok v0 := rfl
    have e3 : (prodKeys [A, B]).foldlM (prodSetsStep [A, B]) v0 = .ok v0 := rfl
    have e4 : newDims [A, B] (prodKeys [A, B]) = .ok [true, false, true] := rfl
    have e5 : ((prodKeys [A, B]).zip (cumFlags 0 [true, false, true])).foldlM (prodDimsStep [A, B] 2)
        ⟨[], List.replicate 2 1, v0⟩ = .ok ⟨dm, [ys.length, 2], v⟩ := rfl
    have e6 : placeProb dm [ys.length, 2] A =
        .ok ⟨[n, 1], fun j => a.get (unravelIx [n] (ravelIx [n, 1] j))⟩ := by
      have h1 : placeProb dm [ys.length, 2] A = if a.isscalar then .ok a else reshape [ys.length, 1] a := by
        show (if a.isscalar = true then _ else _) = _
        split
        · rfl
        · rfl
      rw [h1, if_neg (by simp [Arr.isscalar, ha]), reshape, if_pos (by simp [ha, hy]), ha, hy]
    have e7 : placeProb dm [ys.length, 2] B =
        .ok ⟨[n, 2], fun j => b.get [(unravelIx [n, 2] (ravelIx [n, 2] j)).getD 1 0,
          (unravelIx [n, 2] (ravelIx [n, 2] j)).getD 0 0]⟩ := by
      have h1 : placeProb dm [ys.length, 2] B = if b.isscalar then .ok b else
          (do reshape [ys.length, 2] (← moveaxis (expandTo 2 b) [0, 1] [1, 0])) := by
        show (if b.isscalar = true then _ else _) = _
        split
        · rfl
        · rfl
      have h2 : moveaxis (expandTo 2 b) [0, 1] [1, 0] = .ok ⟨[n, 2], fun j => b.get [j.getD 1 0, j.getD 0 0]⟩ := by
        have : expandTo 2 b = ⟨[2, n], fun i => b.get (i.take 2)⟩ := by simp [expandTo, hb]
        rw [this]
        rfl
      rw [h1, if_neg (by simp [Arr.isscalar, hb]), h2]
      simp only [bind, Except.bind]
      rw [reshape, if_pos (by simp [hy]), hy]
    set a' : Arr := ⟨[n, 1], fun j => a.get (unravelIx [n] (ravelIx [n, 1] j))⟩
    set b' : Arr := ⟨[n, 2], fun j => b.get [(unravelIx [n, 2] (ravelIx [n, 2] j)).getD 1 0,
          (unravelIx [n, 2] (ravelIx [n, 2] j)).getD 0 0]⟩
    have hbs : bshape [n, 1] [n, 2] = .ok [n, 2] := by
      simp [bshape, bshapeSame, bind, Except.bind, pure, Except.pure]
    refine ⟨⟨[n, 2], fun j => a'.bget j * b'.bget j⟩, rfl, ?_, ?_⟩
    · intro i j hi hj
      have ha : a'.bget [i, j] = a.get [i] := by
        by_cases h1 : n = 1
        · have : i = 0 := by omega
          simp [a', Arr.bget, h1, this, ravelIx, unravelIx]
        · simp [a', Arr.bget, h1, ravelIx, unravelIx]
      have hi0 : (if n = 1 then 0 else i) = i := by split <;> omega
      have hb' : b'.bget [i, j] = b.get [j, i] := by
        have h1 : (i * 2 + j) / 2 = i := by omega
        have h2 : (i * 2 + j) % 2 = j := by omega
        simp [b', Arr.bget, hi0, ravelIx, unravelIx, h1, h2]
      show a'.bget [i, j] * b'.bget [i, j] = _
      rw [ha, hb']
    · have e8 : prodRuleArr [a', b'] [.lin 1, .lin 1] =
          .ok ⟨[n, 2], fun j => a'.bget j * b'.bget j⟩ := by
        simp only [prodRuleArr, applyProdArr, List.foldlM_cons, List.foldlM_nil, Arr.zip]
        simp [PScale.iscomplex, a', b', hbs, bind, Except.bind, pure, Except.pure]
      have e9 : [A, B].mapM (placeProb dm [ys.length, 2]) = .ok [a', b'] := by
        simp [e6, e7, bind, Except.bind, pure, Except.pure]
      unfold productGeneral
      simp only [e1, e2, e3, e4, bind, Except.bind]
      rw [show (cumFlags 0 [true, false, true]).getLast? = some 2 from rfl]
      simp only [Bool.false_eq_true, false_and, if_false, e5, e9]
      rw [show [A, B].map PD.pscale = [.lin 1, .lin 1] from rfl, e8]
      rfl
  obtain ⟨q, q1, q2, q3⟩ := hgen
  have hBA : BuildArgs fmt m [] v dm [n, 2] := by
    have hget : ∀ k w, Dict.get? v k = some w → (k = ['x'] ∧ w = .arr [xs.length, 1] xs) ∨
        (k = ['y'] ∧ w = .arr [ys.length, 1] ys) ∨ (k = ['o'] ∧ w = .arr [1, 2] [0, 1]) := by
      intro k w hw
      have := Dict.get?_mem hw
      simpa [v] using this
    refine ⟨by simp [v], ?_, ?_, by decide, by decide, by simp [m], ?_, ?_, ?_, ?_, ?_, ?_⟩
    · show [['x'], ['y'], ['o']].Nodup; decide
    · show ∀ k ∈ [['x'], ['y'], ['o']], k ∉ disallowed; decide
    · intro k; show k ∈ [['x'], ['y'], ['o']] ↔ k ∈ [['x'], ['y'], ['o']] ∨ k ∈ []; simp
    · show [['x'], ['y'], ['o']].Nodup; decide
    · intro k hk; exact hk
    · intro k w hw hs
      rcases hget k w hw with ⟨rfl, rfl⟩ | ⟨rfl, rfl⟩ | ⟨rfl, rfl⟩ <;> simp [Val.issingleton] at hs
    · intro k w hw hs
      rcases hget k w hw with ⟨rfl, rfl⟩ | ⟨rfl, rfl⟩ | ⟨rfl, rfl⟩
      · exact ⟨_, _, 0, rfl, by simp; omega, rfl, by simp [hx]⟩
      · exact ⟨_, _, 0, rfl, by simp; omega, rfl, by simp [hy]⟩
      · exact ⟨_, _, 1, rfl, by simp, rfl, rfl⟩
    · intro a ha
      rcases a with _ | _ | a
      · exact ⟨['x'], rfl⟩
      · exact ⟨['o'], rfl⟩
      · simp at ha
  obtain ⟨r, i1, i2, i3, i4, i5, i6, i7, i8, i9⟩ := pdInit_ok hBA q q1 (PScale.lin 1).spec (.lin 1) lin1_stable
  refine ⟨r, by rw [hprod, q3, i1]; rfl, i2, hBA.placed i2 i5 i6 i7, by rw [i3]; rfl, i4, by rw [i6]; rfl, by rw [i6]; rfl,
    by rw [i6]; rfl, ?_, ?_, ?_, i7, i9, ?_⟩
  · rw [hBA.values i5]; rfl
  · rw [hBA.values i5]; rfl
  · rw [hBA.values i5]; rfl
  · intro i j hi hj
    rw [i8, q2 i j hi hj]

/-- The product p(x, y, o) of the samples with one value of o. -/
theorem omc_product_one (fmt : Val → Str) (n : ℕ) (o : ℚ) (xs ys : List ℚ) (hx : xs.length = n)
    (hy : ys.length = n) (a b : Arr) (ha : a.shape = [n]) (hb : b.shape = [n])
    (hfmt : Spec.Entry ['o'] (eqText fmt ['o'] (.scalar o))) :
    ∃ r, product fmt [omcMarg n xs ys a, omcCond1 fmt n o xs ys b] = .ok (some r) ∧ r.WF fmt ∧ r.Placed ∧
      r.marg.keys = [['x'], ['y'], ['o']] ∧ r.cond = [] ∧
      r.axis ['x'] = some 0 ∧ r.axis ['y'] = some 0 ∧ r.axis ['o'] = none ∧
      r.values ['x'] = some (.arr [xs.length] xs) ∧ r.values ['y'] = some (.arr [ys.length] ys) ∧
      Dict.get? r.vals ['o'] = some (.scalar o) ∧ r.shape = [n] ∧ r.pscale = .lin 1 ∧
      ∀ i, i < n → r.prob.get [i] = a.get [i] * b.get [i] := by
  set A := omcMarg n xs ys a with hA
  set B := omcCond1 fmt n o xs ys b with hB
  have hprod : product fmt [A, B] = (productGeneral fmt [A, B] (.lin 1) false).map some :=
    product_general (productPscale_one _ _ rfl rfl)
      (show [['x'], ['y'], ['o']].Nodup by decide) rfl
  let m : Dict Str Str := [(['x'], ['x', '=', '[', ']']), (['y'], ['y', '=', '[', ']']),
    (['o'], eqText fmt ['o'] (.scalar o))]
  let v : Dict Str Val := [(['x'], .arr [xs.length] xs), (['y'], .arr [ys.length] ys), (['o'], .scalar o)]
  let dm : Dict Str (Option ℕ) := [(['x'], some 0), (['y'], some 0)]
  have hgen : ∃ q : Arr, q.shape = [n] ∧
      (∀ i, i < n → q.get [i] = a.get [i] * b.get [i]) ∧
      productGeneral fmt [A, B] (.lin 1) false =
        pdInit fmt (margcondStr m []) v (some dm) q (PScale.lin 1).spec := by
    have e1 : [A, B].foldlM (condCheck [A, B]) [] = .ok [] := rfl
    let v0 : Dict Str Val := [(['x'], .arr [n] xs), (['y'], .arr [n] ys), (['o'], .scalar o)]
    have e2 : (prodKeys [A, B]).foldlM (prodValsStep [A, B]) [] = .ok v0 := rfl
    have e3 : (prodKeys [A, B]).foldlM (prodSetsStep [A, B]) v0 = .ok v0 := rfl
    have e4 : newDims [A, B] (prodKeys [A, B]) = .ok [true, false, false] := rfl
    have e5 : ((prodKeys [A, B]).zip (cumFlags 0 [true, false, false])).foldlM (prodDimsStep [A, B] 1)
        ⟨[], List.replicate 1 1, v0⟩ = .ok ⟨dm, [ys.length], v⟩ := rfl
    have e6 : placeProb dm [ys.length] A =
        .ok ⟨[n], fun j => a.get (unravelIx [n] (ravelIx [n] j))⟩ := by
      have h1 : placeProb dm [ys.length] A = if a.isscalar then .ok a else reshape [ys.length] a := by
        show (if a.isscalar = true then _ else _) = _
        split
        · rfl
        · rfl
      rw [h1, if_neg (by simp [Arr.isscalar, ha]), reshape, if_pos (by simp [ha, hy]), ha, hy]
    have e7 : placeProb dm [ys.length] B =
        .ok ⟨[n], fun j => b.get (unravelIx [n] (ravelIx [n] j))⟩ := by
      have h1 : placeProb dm [ys.length] B = if b.isscalar then .ok b else reshape [ys.length] b := by
        show (if b.isscalar = true then _ else _) = _
        split
        · rfl
        · rfl
      rw [h1, if_neg (by simp [Arr.isscalar, hb]), reshape, if_pos (by simp [hb, hy]), hb, hy]
    set a' : Arr := ⟨[n], fun j => a.get (unravelIx [n] (ravelIx [n] j))⟩
    set b' : Arr := ⟨[n], fun j => b.get (unravelIx [n] (ravelIx [n] j))⟩
    refine ⟨⟨[n], fun j => a'.bget j * b'.bget j⟩, rfl, ?_, ?_⟩
    · intro i hi
      have hi0 : (if n = 1 then 0 else i) = i := by split <;> omega
      show a'.bget [i] * b'.bget [i] = _
      simp [a', b', Arr.bget, hi0, ravelIx, unravelIx]
    · have e8 : prodRuleArr [a', b'] [.lin 1, .lin 1] =
          .ok ⟨[n], fun j => a'.bget j * b'.bget j⟩ := by
        simp only [prodRuleArr, applyProdArr, List.foldlM_cons, List.foldlM_nil, Arr.zip]
        simp [PScale.iscomplex, a', b', bshape_self, bind, Except.bind, pure, Except.pure]
      have e9 : [A, B].mapM (placeProb dm [ys.length]) = .ok [a', b'] := by
        simp [e6, e7, bind, Except.bind, pure, Except.pure]
      unfold productGeneral
      simp only [e1, e2, e3, e4, bind, Except.bind]
      rw [show (cumFlags 0 [true, false, false]).getLast? = some 1 from rfl]
      simp only [Bool.false_eq_true, false_and, if_false, e5, e9]
      rw [show [A, B].map PD.pscale = [.lin 1, .lin 1] from rfl, e8]
      rfl
  obtain ⟨q, q1, q2, q3⟩ := hgen
  have hBA : BuildArgs fmt m [] v dm [n] := by
    have hget : ∀ k w, Dict.get? v k = some w → (k = ['x'] ∧ w = .arr [xs.length] xs) ∨
        (k = ['y'] ∧ w = .arr [ys.length] ys) ∨ (k = ['o'] ∧ w = .scalar o) := by
      intro k w hw
      have := Dict.get?_mem hw
      simpa [v] using this
    refine ⟨by simp [v], ?_, ?_, ?_, by decide, by simp [m], ?_, ?_, ?_, ?_, ?_, ?_⟩
    · show [['x'], ['y'], ['o']].Nodup; decide
    · show ∀ k ∈ [['x'], ['y'], ['o']], k ∉ disallowed; decide
    · refine ⟨show [['x'], ['y'], ['o']].Nodup by decide, ?_⟩
      intro kv hkv
      simp only [m, List.mem_cons, List.not_mem_nil, or_false] at hkv
      rcases hkv with rfl | rfl | rfl
      · decide
      · decide
      · exact hfmt
    · intro k; show k ∈ [['x'], ['y'], ['o']] ↔ k ∈ [['x'], ['y'], ['o']] ∨ k ∈ []; simp
    · show [['x'], ['y']].Nodup; decide
    · intro k hk
      show k ∈ [['x'], ['y'], ['o']]
      have : k ∈ [['x'], ['y']] := hk
      simp at this ⊢
      tauto
    · intro k w hw hs
      rcases hget k w hw with ⟨rfl, rfl⟩ | ⟨rfl, rfl⟩ | ⟨rfl, rfl⟩
      · simp [Val.issingleton] at hs
      · simp [Val.issingleton] at hs
      · exact ⟨rfl, Or.inl rfl⟩
    · intro k w hw hs
      rcases hget k w hw with ⟨rfl, rfl⟩ | ⟨rfl, rfl⟩ | ⟨rfl, rfl⟩
      · exact ⟨_, _, 0, rfl, by simp, rfl, by simp [hx]⟩
      · exact ⟨_, _, 0, rfl, by simp, rfl, by simp [hy]⟩
      · simp [Val.issingleton] at hs
    · intro a ha
      rcases a with _ | a
      · exact ⟨['x'], rfl⟩
      · simp at ha
  obtain ⟨r, i1, i2, i3, i4, i5, i6, i7, i8, i9⟩ := pdInit_ok hBA q q1 (PScale.lin 1).spec (.lin 1) lin1_stable
  refine ⟨r, by rw [hprod, q3, i1]; rfl, i2, hBA.placed i2 i5 i6 i7, by rw [i3]; rfl, i4, by rw [i6]; rfl, by rw [i6]; rfl,
    by rw [i6]; rfl, ?_, ?_, ?_, i7, i9, ?_⟩
  · rw [hBA.values i5]; rfl
  · rw [hBA.values i5]; rfl
  · rw [i5]; rfl
  · intro i hi
    rw [i8, q2 i hi]

end Probayes
