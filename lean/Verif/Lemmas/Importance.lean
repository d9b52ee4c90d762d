/-
Lemmas on fitting by weighted random samples (Model/Importance.lean).
-/
import Verif.Model.Importance
import Verif.Lemmas.OMC
import Verif.Lemmas.PDCondProb

namespace Probayes

/-- The likelihood of each datum at each sample. -/
noncomputable def fitCall (m n : ℕ) (data xs ys : List ℚ) (q : Arr) (s : PScale) : PD :=
  ⟨['o', '=', '[', ']', '|', 'x', '=', '[', ']', ',', 'y', '=', '[', ']'], [(['o'], ['o', '=', '[', ']'])],
   [(['x'], ['x', '=', '[', ']']), (['y'], ['y', '=', '[', ']'])],
   ⟨[(['o'], .arr [m, 1] data), (['x'], .arr [1, n] xs), (['y'], .arr [1, n] ys)],
    [(['o'], some 0), (['x'], some 1), (['y'], some 1)],
    2, [m, n, n], [m, n], m * n, [false, false, false], false⟩, q, s⟩

/-- The likelihood of all data at each sample. -/
noncomputable def fitCond (fmt : Val → Str) (m n : ℕ) (xs ys : List ℚ) (q : Arr) (s : PScale) : PD :=
  ⟨margcondStr [(['o'], eqText fmt ['o'] (.setint m))]
     [(['x'], ['x', '=', '[', ']']), (['y'], ['y', '=', '[', ']'])], [(['o'], eqText fmt ['o'] (.setint m))],
   [(['x'], ['x', '=', '[', ']']), (['y'], ['y', '=', '[', ']'])],
   ⟨[(['o'], .setint m), (['x'], .arr [n] xs), (['y'], .arr [n] ys)],
    [(['x'], some 0), (['y'], some 0), (['o'], none)],
    1, [n, n], [n], n, [true, false, false], false⟩, q, s⟩

/-- The joint distribution. -/
noncomputable def fitJoint (fmt : Val → Str) (m n : ℕ) (xs ys : List ℚ) (q : Arr) (s : PScale) : PD :=
  ⟨margcondStr [(['x'], ['x', '=', '[', ']']), (['y'], ['y', '=', '[', ']']),
      (['o'], eqText fmt ['o'] (.setint m))] [],
   [(['x'], ['x', '=', '[', ']']), (['y'], ['y', '=', '[', ']']), (['o'], eqText fmt ['o'] (.setint m))], [],
   ⟨[(['x'], .arr [n] xs), (['y'], .arr [n] ys), (['o'], .setint m)],
    [(['x'], some 0), (['y'], some 0), (['o'], none)],
    1, [n, n], [n], n, [false, false, true], false⟩, q, s⟩

/-- The posterior. -/
noncomputable def fitPost (fmt : Val → Str) (m n : ℕ) (xs ys : List ℚ) (q : Arr) (s : PScale) : PD :=
  ⟨margcondStr [(['x'], ['x', '=', '[', ']']), (['y'], ['y', '=', '[', ']'])]
      [(['o'], eqText fmt ['o'] (.setint m))],
   [(['x'], ['x', '=', '[', ']']), (['y'], ['y', '=', '[', ']'])], [(['o'], eqText fmt ['o'] (.setint m))],
   ⟨[(['x'], .arr [n] xs), (['y'], .arr [n] ys), (['o'], .setint m)],
    [(['x'], some 0), (['y'], some 0), (['o'], none)],
    1, [n, n], [n], n, [false, false, true], false⟩, q, s⟩

theorem fit_init_call (fmt : Val → Str) (m n : ℕ) (hm : 0 < m) (hn : 0 < n) (data xs ys : List ℚ) (hd : data.length = m)
    (hx : xs.length = n) (hy : ys.length = n) (q : Arr) (hq : q.shape = [m, n]) (s : PScale)
    (hs : evalPscale s.spec = .ok s) :
    pdInit fmt ['o', '=', '[', ']', '|', 'x', '=', '[', ']', ',', 'y', '=', '[', ']']
      [(['o'], .arr [m, 1] data), (['x'], .arr [1, n] xs), (['y'], .arr [1, n] ys)]
      (some [(['o'], some 0), (['x'], some 1), (['y'], some 1)]) q s.spec =
      .ok (fitCall m n data xs ys q s) := by
  have h0 : [m, 1].foldl max 0 = m := by simp; omega
  have h1 : [1, n].foldl max 0 = n := by simp; omega
  have e2 : distDims [(['o'], .arr [m, 1] data), (['x'], .arr [1, n] xs), (['y'], .arr [1, n] ys)]
      (some [(['o'], some 0), (['x'], some 1), (['y'], some 1)]) = .ok (fitCall m n data xs ys q s).dist := by
    have : distDims [(['o'], .arr [m, 1] data), (['x'], .arr [1, n] xs), (['y'], .arr [1, n] ys)]
      (some [(['o'], some 0), (['x'], some 1), (['y'], some 1)]) = (do
        let st ← [(['o'], Val.arr [m, 1] data), (['x'], Val.arr [1, n] xs), (['y'], .arr [1, n] ys)].foldlM
          (dimsStep false) ⟨[], [(['o'], some 0), (['x'], some 1), (['y'], some 1)], [none, none], 2, 0, []⟩
        match st.shape.mapM id with
        | none => .error .type
        | some shape => return ⟨st.vals, st.dims, st.ndim, st.sizes, shape, shape.prod,
            [false, false, false], false⟩) := rfl
    rw [this, List.foldlM_cons, dimsStep_arr _ _ _ _ 0 rfl (by rw [hd, h0]) rfl]
    simp only [bind, Except.bind]
    rw [List.foldlM_cons, dimsStep_arr _ _ _ _ 1 rfl (by rw [hx, h1]) rfl]
    simp only [bind, Except.bind]
    rw [List.foldlM_cons, dimsStep_arr _ _ _ _ 1 rfl (by rw [hy, h1]) rfl]
    simp only [bind, Except.bind, List.foldlM_nil, pure, Except.pure]
    simp [dimsPlace, hd, hx, hy, fitCall, axisShape]
  have e1 : strMargcond ['o', '=', '[', ']', '|', 'x', '=', '[', ']', ',', 'y', '=', '[', ']'] =
    .ok ([(['o'], ['o', '=', '[', ']'])],
    [(['x'], ['x', '=', '[', ']']), (['y'], ['y', '=', '[', ']'])]) := rfl
  have e3 : probOK (fitCall m n data xs ys q s).dist q = true := by
    simp [probOK, fitCall, Arr.isscalar, hq]
  unfold pdInit
  rw [e1, e2]
  simp only [bind, Except.bind]
  rw [show (fitCall m n data xs ys q s).dist.vals.foldlM (nameStep fmt) ([(['o'], ['o', '=', '[', ']'])],
    [(['x'], ['x', '=', '[', ']']), (['y'], ['y', '=', '[', ']'])]) =
      .ok ([(['o'], ['o', '=', '[', ']'])],
    [(['x'], ['x', '=', '[', ']']), (['y'], ['y', '=', '[', ']'])]) from rfl]
  simp only [hs, e3, if_true]
  rfl

theorem fit_init_cond (fmt : Val → Str) (m n : ℕ) (hn : 0 < n) (xs ys : List ℚ)
    (hx : xs.length = n) (hy : ys.length = n) (q : Arr) (hq : q.shape = [n]) (s : PScale)
    (hs : evalPscale s.spec = .ok s) :
    pdInit fmt ['o', '=', '{', '}', '|', 'x', '=', '[', ']', ',', 'y', '=', '[', ']']
      [(['o'], .setint m), (['x'], .arr [1, n] xs), (['y'], .arr [1, n] ys)]
      (some [(['x'], some 0), (['y'], some 0)]) q s.spec =
      .ok (fitCond fmt m n xs ys q s) := by
  have h1 : [1, n].foldl max 0 = n := by simp; omega
  have e2 : distDims [(['o'], .setint m), (['x'], .arr [1, n] xs), (['y'], .arr [1, n] ys)]
      (some [(['x'], some 0), (['y'], some 0)]) = .ok (fitCond fmt m n xs ys q s).dist := by
    have : distDims [(['o'], .setint m), (['x'], .arr [1, n] xs), (['y'], .arr [1, n] ys)]
      (some [(['x'], some 0), (['y'], some 0)]) = (do
        let st ← [(['x'], Val.arr [1, n] xs), (['y'], .arr [1, n] ys)].foldlM
          (dimsStep false) ⟨[(['o'], .setint m)], [(['x'], some 0), (['y'], some 0), (['o'], none)], [none], 1, 0, []⟩
        match st.shape.mapM id with
        | none => .error .type
        | some shape => return ⟨st.vals, st.dims, st.ndim, st.sizes, shape, shape.prod,
            [true, false, false], false⟩) := rfl
    rw [this, List.foldlM_cons, dimsStep_arr _ _ _ _ 0 rfl (by rw [hx, h1]) rfl]
    simp only [bind, Except.bind]
    rw [List.foldlM_cons, dimsStep_arr _ _ _ _ 0 rfl (by rw [hy, h1]) rfl]
    simp only [bind, Except.bind, List.foldlM_nil, pure, Except.pure]
    simp [dimsPlace, hx, hy, fitCond, axisShape]
  have e1 : strMargcond ['o', '=', '{', '}', '|', 'x', '=', '[', ']', ',', 'y', '=', '[', ']'] =
    .ok ([(['o'], ['o', '=', '{', '}'])],
    [(['x'], ['x', '=', '[', ']']), (['y'], ['y', '=', '[', ']'])]) := rfl
  have e3 : probOK (fitCond fmt m n xs ys q s).dist q = true := by
    simp [probOK, fitCond, Arr.isscalar, hq]
  unfold pdInit
  rw [e1, e2]
  simp only [bind, Except.bind]
  rw [show (fitCond fmt m n xs ys q s).dist.vals.foldlM (nameStep fmt) ([(['o'], ['o', '=', '{', '}'])],
    [(['x'], ['x', '=', '[', ']']), (['y'], ['y', '=', '[', ']'])]) =
      .ok ([(['o'], eqText fmt ['o'] (.setint m))],
    [(['x'], ['x', '=', '[', ']']), (['y'], ['y', '=', '[', ']'])]) from rfl]
  simp only [hs, e3, if_true]
  rfl

theorem fit_dist (fmt : Val → Str) (m n : ℕ) (xs ys : List ℚ)
    (hx : xs.length = n) (hy : ys.length = n) (q : Arr) (s : PScale)
    (dims : Dict Str (Option ℕ)) (hdims : dims = [(['x'], some 0), (['y'], some 0)] ∨
      dims = [(['x'], some 0), (['y'], some 0), (['o'], none)]) :
    distDims [(['x'], .arr [n] xs), (['y'], .arr [n] ys), (['o'], .setint m)] (some dims) =
      .ok (fitJoint fmt m n xs ys q s).dist := by
  have h1 : [n].foldl max 0 = n := by simp
  have : distDims [(['x'], .arr [n] xs), (['y'], .arr [n] ys), (['o'], .setint m)] (some dims) = (do
        let st ← [(['x'], Val.arr [n] xs), (['y'], .arr [n] ys), (['o'], .setint m)].foldlM
          (dimsStep false) ⟨[], dims, [none], 1, 0, []⟩
        match st.shape.mapM id with
        | none => .error .type
        | some shape => return ⟨st.vals, st.dims, st.ndim, st.sizes, shape, shape.prod,
            [false, false, true], false⟩) := by
    rcases hdims with rfl | rfl <;> rfl
  have g1 : Dict.get? dims ['x'] = some (some 0) := by rcases hdims with rfl | rfl <;> rfl
  have g2 : Dict.get? dims ['y'] = some (some 0) := by rcases hdims with rfl | rfl <;> rfl
  rw [this, List.foldlM_cons, dimsStep_arr _ _ _ _ 0 rfl (by rw [hx, h1]) g1]
  simp only [bind, Except.bind]
  rw [List.foldlM_cons, dimsStep_arr _ _ _ _ 0 rfl (by rw [hy, h1]) g2]
  simp only [bind, Except.bind]
  rcases hdims with rfl | rfl
  · simp [List.foldlM_cons, List.foldlM_nil, dimsStep, dimsScalar, Val.issingleton, dimsPlace, hx, hy, fitJoint,
      axisShape, bind, Except.bind, pure, Except.pure, Dict.set, Dict.get?]
  · simp [List.foldlM_cons, List.foldlM_nil, dimsStep, dimsScalar, Val.issingleton, dimsPlace, hx, hy, fitJoint,
      axisShape, bind, Except.bind, pure, Except.pure, Dict.set, Dict.get?]

theorem fit_init_joint (fmt : Val → Str) (m n : ℕ) (xs ys : List ℚ)
    (hx : xs.length = n) (hy : ys.length = n) (q : Arr) (hq : q.shape = [n]) (s : PScale)
    (hs : evalPscale s.spec = .ok s) (hfmt : Spec.Entry ['o'] (eqText fmt ['o'] (.setint m))) :
    pdInit fmt (margcondStr [(['x'], ['x', '=', '[', ']']), (['y'], ['y', '=', '[', ']']),
        (['o'], eqText fmt ['o'] (.setint m))] [])
      [(['x'], .arr [n] xs), (['y'], .arr [n] ys), (['o'], .setint m)]
      (some [(['x'], some 0), (['y'], some 0)]) q s.spec =
      .ok (fitJoint fmt m n xs ys q s) := by
  have e1 : strMargcond (margcondStr [(['x'], ['x', '=', '[', ']']), (['y'], ['y', '=', '[', ']']),
      (['o'], eqText fmt ['o'] (.setint m))] []) = .ok ([(['x'], ['x', '=', '[', ']']), (['y'], ['y', '=', '[', ']']),
      (['o'], eqText fmt ['o'] (.setint m))], []) := by
    apply C14_render_parse
    · refine ⟨show [['x'], ['y'], ['o']].Nodup by decide, ?_⟩
      intro kv hkv
      simp only [List.mem_cons, List.not_mem_nil, or_false] at hkv
      rcases hkv with rfl | rfl | rfl
      · decide
      · decide
      · exact hfmt
    · exact ⟨show ([] : List Str).Nodup by decide, by simp⟩
  have e3 : probOK (fitJoint fmt m n xs ys q s).dist q = true := by
    simp [probOK, fitJoint, Arr.isscalar, hq]
  unfold pdInit
  rw [e1, fit_dist fmt m n xs ys hx hy q s _ (Or.inl rfl)]
  simp only [bind, Except.bind]
  rw [show (fitJoint fmt m n xs ys q s).dist.vals.foldlM (nameStep fmt) ([(['x'], ['x', '=', '[', ']']), (['y'], ['y', '=', '[', ']']),
      (['o'], eqText fmt ['o'] (.setint m))], []) =
      .ok ([(['x'], ['x', '=', '[', ']']), (['y'], ['y', '=', '[', ']']),
      (['o'], eqText fmt ['o'] (.setint m))], []) from rfl]
  simp only [hs, e3, if_true]
  rfl

theorem fit_init_post (fmt : Val → Str) (m n : ℕ) (xs ys : List ℚ)
    (hx : xs.length = n) (hy : ys.length = n) (q : Arr) (hq : q.shape = [n]) (s : PScale)
    (hs : evalPscale s.spec = .ok s) (hfmt : Spec.Entry ['o'] (eqText fmt ['o'] (.setint m))) :
    pdInit fmt (margcondStr [(['x'], ['x', '=', '[', ']']), (['y'], ['y', '=', '[', ']'])]
        [(['o'], eqText fmt ['o'] (.setint m))])
      [(['x'], .arr [n] xs), (['y'], .arr [n] ys), (['o'], .setint m)]
      (some [(['x'], some 0), (['y'], some 0), (['o'], none)]) q s.spec =
      .ok (fitPost fmt m n xs ys q s) := by
  have e1 : strMargcond (margcondStr [(['x'], ['x', '=', '[', ']']), (['y'], ['y', '=', '[', ']'])]
      [(['o'], eqText fmt ['o'] (.setint m))]) = .ok ([(['x'], ['x', '=', '[', ']']), (['y'], ['y', '=', '[', ']'])],
      [(['o'], eqText fmt ['o'] (.setint m))]) := by
    apply C14_render_parse
    · refine ⟨show [['x'], ['y']].Nodup by decide, ?_⟩
      intro kv hkv
      simp only [List.mem_cons, List.not_mem_nil, or_false] at hkv
      rcases hkv with rfl | rfl
      · decide
      · decide
    · refine ⟨show [['o']].Nodup by decide, ?_⟩
      intro kv hkv
      simp only [List.mem_cons, List.not_mem_nil, or_false] at hkv
      subst hkv
      exact hfmt
  have e3 : probOK (fitJoint fmt m n xs ys q s).dist q = true := by
    simp [probOK, fitJoint, Arr.isscalar, hq]
  unfold pdInit
  rw [e1, fit_dist fmt m n xs ys hx hy q s _ (Or.inr rfl)]
  simp only [bind, Except.bind]
  rw [show (fitJoint fmt m n xs ys q s).dist.vals.foldlM (nameStep fmt) ([(['x'], ['x', '=', '[', ']']), (['y'], ['y', '=', '[', ']'])],
      [(['o'], eqText fmt ['o'] (.setint m))]) =
      .ok ([(['x'], ['x', '=', '[', ']']), (['y'], ['y', '=', '[', ']'])],
      [(['o'], eqText fmt ['o'] (.setint m))]) from rfl]
  simp only [hs, e3, if_true]
  rfl

/-- The two scales of the likelihood: plain numbers and plain logarithms. -/
def FitScale (s : PScale) : Prop := s = .lin 1 ∨ s = .log 0 0

theorem FitScale.stable {s : PScale} (h : FitScale s) : evalPscale s.spec = .ok s := by
  rcases h with rfl | rfl
  · exact lin1_stable
  · simp [PScale.spec, evalPscale, complexZero]

theorem offset_plain : Spec.offset 0 0 = 0 := by simp [Spec.offset]

theorem value_lin1 (x : ℝ) : Spec.value (.lin 1) x = x := by simp [Spec.value]

theorem value_log0 (x : ℝ) : Spec.value (.log 0 0) x = Real.exp x := by simp [Spec.value, offset_plain]

theorem bshape_outer (m n : ℕ) : bshape [m, 1] [1, n] = .ok [m, n] := by
  by_cases h : 1 = n
  · subst h
    simp [bshape, bshapeSame, bind, Except.bind, pure, Except.pure]
    omega
  · by_cases h' : m = 1
    · subst h'
      simp [bshape, bshapeSame, h, bind, Except.bind, pure, Except.pure]
    · simp [bshape, bshapeSame, h, h', bind, Except.bind, pure, Except.pure]

theorem elementwise_ok (f : ℝ → ℝ → ℝ → ℝ) (m n : ℕ) (data xs ys : List ℚ) (dims : Dict Str (Option ℕ)) :
    ∃ q, elementwise f [(['o'], ⟨.array data, [m, 1]⟩), (['x'], ⟨.array xs, [1, n]⟩),
        (['y'], ⟨.array ys, [1, n]⟩)] dims = .ok q ∧ q.shape = [m, n] ∧
      ∀ i k, i < m → k < n → q.get [i, k] =
        f ((data.getD i 0 : ℚ) : ℝ) ((xs.getD k 0 : ℚ) : ℝ) ((ys.getD k 0 : ℚ) : ℝ) := by
  set X : Arr := valArr [1, n] xs
  set Y : Arr := valArr [1, n] ys
  set O : Arr := valArr [m, 1] data
  refine ⟨⟨[m, n], fun j => f (O.bget j) (X.bget j) (Y.bget j)⟩, ?_, rfl, ?_⟩
  · have h3 : elementwise f [(['o'], ⟨.array data, [m, 1]⟩), (['x'], ⟨.array xs, [1, n]⟩),
        (['y'], ⟨.array ys, [1, n]⟩)] dims = (do
          let s ← bshape [1, n] [1, n]
          let t ← bshape [m, 1] s
          return ⟨t, fun j => f (O.bget j) (X.bget j) (Y.bget j)⟩) := rfl
    rw [h3, bshape_self]
    simp only [bind, Except.bind]
    rw [bshape_outer]
    rfl
  · intro i k hi hk
    have hO : O.bget [i, k] = ((data.getD i 0 : ℚ) : ℝ) := by
      by_cases h1 : m = 1
      · have : i = 0 := by omega
        simp [O, valArr, Arr.bget, h1, this, ravelIx]
      · simp [O, valArr, Arr.bget, h1, ravelIx]
    have hX : ∀ zs : List ℚ, (valArr [1, n] zs).bget [i, k] = ((zs.getD k 0 : ℚ) : ℝ) := by
      intro zs
      by_cases h1 : n = 1
      · have : k = 0 := by omega
        simp [valArr, Arr.bget, h1, this, ravelIx]
      · simp [valArr, Arr.bget, h1, ravelIx]
    show f (O.bget [i, k]) (X.bget [i, k]) (Y.bget [i, k]) = _
    rw [hO, hX, hX]

theorem fit_prod (fmt : Val → Str) (m n : ℕ) (hn : 0 < n) (data xs ys : List ℚ) (hd : data.length = m)
    (hx : xs.length = n) (hy : ys.length = n) (q : Arr) (hq : q.shape = [m, n]) {s : PScale} (hs : FitScale s) :
    ∃ b, (fitCall m n data xs ys q s).prod fmt [['o']] = .ok (fitCond fmt m n xs ys b s) ∧ b.shape = [n] ∧
      ∀ k, k < n → Spec.value s (b.get [k]) = ∏ i ∈ Finset.range m, Spec.value s (q.get [i, k]) := by
  have htext : "={}".toList = ['=', '{', '}'] := by decide
  have e1 : (fitCall m n data xs ys q s).vals.foldlM (prodStep (fitCall m n data xs ys q s) [['o']])
      ⟨(fitCall m n data xs ys q s).marg, [], [], 0, []⟩ =
      .ok ⟨[(['o'], ['o', '=', '{', '}'])], [(['o'], .setint m), (['x'], .arr [1, n] xs), (['y'], .arr [1, n] ys)],
        [(['x'], some 0), (['y'], some 0)], 1, [0]⟩ := by
    rw [← hd]
    simp [fitCall, PD.vals, List.foldlM_cons, List.foldlM_nil, prodStep, htext, PD.dims, dimOf, shiftDim, Dict.get?,
      Dict.set, Val.issingleton, bind, Except.bind, pure, Except.pure]
  have hplain : prodScale s ([0].map ((fitCall m n data xs ys q s).shape.getD · 0)).prod = s := by
    unfold prodScale
    rw [if_pos]
    rcases hs with rfl | rfl <;> simp [PScale.plain]
  have hfil : ∀ k < n, (idx [m, n]).filter (fun i => dropAxes (· ∈ [0]) i = [k]) =
      (Finset.range m).image fun i => [i, k] := by
    intro k hk
    ext i
    simp only [Finset.mem_filter, mem_idx, Finset.mem_image, Finset.mem_range]
    constructor
    · rintro ⟨h1, h2⟩
      rcases h1 with _ | ⟨h1, _ | ⟨h3, h4⟩⟩
      cases h4
      simp [dropAxes] at h2
      subst h2
      exact ⟨_, h1, rfl⟩
    · rintro ⟨a, ha, rfl⟩
      exact ⟨by simp [ha, hk], by simp [dropAxes]⟩
  have hinj : ∀ k : ℕ, Set.InjOn (fun i : ℕ => [i, k]) (Finset.range m : Set ℕ) := by
    intro k a _ b _ hab
    simpa using hab
  have hrun : ∀ b : Arr, b.shape = [n] → (if s.iscomplex then sumAxes [0] q else prodAxes [0] q) = .ok b →
      (fitCall m n data xs ys q s).prod fmt [['o']] = .ok (fitCond fmt m n xs ys b s) := by
    intro b hb hok
    unfold PD.prod
    rw [if_pos (show ([['o']].all fun x => decide (x ∈ (fitCall m n data xs ys q s).marg.keys)) = true by rfl), e1]
    simp only [bind, Except.bind]
    rw [show (fitCall m n data xs ys q s).pscale = s from rfl, show (fitCall m n data xs ys q s).prob = q from rfl,
      hok, hplain]
    exact fit_init_cond fmt m n hn xs ys hx hy b hb s hs.stable
  rcases hs with rfl | rfl
  · refine ⟨⟨[n], fun j => ∏ i ∈ (idx q.shape).filter (fun i => dropAxes (· ∈ [0]) i = j), q.get i⟩, ?_, rfl, ?_⟩
    · apply hrun _ rfl
      rw [if_neg (by simp [PScale.iscomplex]), prodAxes, if_pos (by simp [hq])]
      simp [hq, dropAxes]
    · intro k hk
      simp only [value_lin1]
      rw [hq, hfil k hk, Finset.prod_image (hinj k)]
  · refine ⟨⟨[n], fun j => ∑ i ∈ (idx q.shape).filter (fun i => dropAxes (· ∈ [0]) i = j), q.get i⟩, ?_, rfl, ?_⟩
    · apply hrun _ rfl
      rw [if_pos (by simp [PScale.iscomplex]), sumAxes, if_pos (by simp [hq])]
      simp [hq, dropAxes]
    · intro k hk
      simp only [value_log0]
      rw [hq, hfil k hk, Finset.sum_image (hinj k), Real.exp_sum]

theorem fit_pscale {a b : PD} (ha : a.pscale = .lin 1) {s : PScale} (hb : b.pscale = s) (hs : FitScale s) :
    productPscale [a, b] = .ok s := by
  rcases hs with rfl | rfl
  · exact productPscale_one a b ha hb
  · have : ¬ npz ≤ 0 := not_le.mpr npz_pos
    simp [productPscale, ha, hb, prodPscale, PScale.spec, PSpec.iscomplex, prodPscaleLog, evalPscale,
      logpOffs, encodeOffs, complexZero, npz_pos, bind, Except.bind, pure, Except.pure]

theorem fit_product (fmt : Val → Str) (m n : ℕ) (xs ys : List ℚ) (hx : xs.length = n)
    (hy : ys.length = n) (a b : Arr) (ha : a.shape = [n]) (hb : b.shape = [n]) {s : PScale} (hs : FitScale s)
    (hfmt : Spec.Entry ['o'] (eqText fmt ['o'] (.setint m))) (hpos : ∀ k, k < n → npz ≤ a.get [k]) :
    ∃ q, product fmt [omcMarg n xs ys a, fitCond fmt m n xs ys b s] = .ok (some (fitJoint fmt m n xs ys q s)) ∧
      q.shape = [n] ∧ ∀ i, i < n → Spec.value s (q.get [i]) = a.get [i] * Spec.value s (b.get [i]) := by
  set A := omcMarg n xs ys a with hA
  set B := fitCond fmt m n xs ys b s with hB
  have hprod : product fmt [A, B] = (productGeneral fmt [A, B] s false).map some :=
    product_general (fit_pscale rfl rfl hs)
      (show [['x'], ['y'], ['o']].Nodup by decide) rfl
  let mm : Dict Str Str := [(['x'], ['x', '=', '[', ']']), (['y'], ['y', '=', '[', ']']),
    (['o'], eqText fmt ['o'] (.setint m))]
  let v : Dict Str Val := [(['x'], .arr [xs.length] xs), (['y'], .arr [ys.length] ys), (['o'], .setint m)]
  let dm : Dict Str (Option ℕ) := [(['x'], some 0), (['y'], some 0)]
  have e1 : [A, B].foldlM (condCheck [A, B]) [] = .ok [] := rfl
  let v0 : Dict Str Val := [(['x'], .arr [n] xs), (['y'], .arr [n] ys), (['o'], .setint m)]
  let v1 : Dict Str Val := [(['x'], .arr [n] xs), (['y'], .arr [n] ys), (['o'], .setint 0)]
  have e2 : (prodKeys [A, B]).foldlM (prodValsStep [A, B]) [] = .ok v1 := rfl
  have e3 : (prodKeys [A, B]).foldlM (prodSetsStep [A, B]) v1 = .ok v0 := by
    have : (prodKeys [A, B]).foldlM (prodSetsStep [A, B]) v1 =
        .ok [(['x'], .arr [n] xs), (['y'], .arr [n] ys), (['o'], .setint (0 + m))] := rfl
    rw [this, zero_add]
  have e4 : newDims [A, B] (prodKeys [A, B]) = .ok [true, false, false] := rfl
  have e5 : ((prodKeys [A, B]).zip (cumFlags 0 [true, false, false])).foldlM (prodDimsStep [A, B] 1)
      ⟨[], List.replicate 1 1, v0⟩ = .ok ⟨dm, [ys.length], v⟩ := rfl
  have e6 : placeProb dm [ys.length] A =
      .ok ⟨[n], fun j => a.get (unravelIx [n] (ravelIx [n] j))⟩ := by
    have h1 : placeProb dm [ys.length] A = if a.isscalar then .ok a else reshape [ys.length] a := by
      show (if a.isscalar = true then _ else _) = _
      split
      · rfl
      · rfl
    rw [h1, if_neg (by simp [Arr.isscalar, ha]), reshape, if_pos (by simp [ha, hy]), ha, hy]
  have e7 : placeProb dm [ys.length] B =
      .ok ⟨[n], fun j => b.get (unravelIx [n] (ravelIx [n] j))⟩ := by
    have h1 : placeProb dm [ys.length] B = if b.isscalar then .ok b else reshape [ys.length] b := by
      show (if b.isscalar = true then _ else _) = _
      split
      · rfl
      · rfl
    rw [h1, if_neg (by simp [Arr.isscalar, hb]), reshape, if_pos (by simp [hb, hy]), hb, hy]
  set a' : Arr := ⟨[n], fun j => a.get (unravelIx [n] (ravelIx [n] j))⟩
  set b' : Arr := ⟨[n], fun j => b.get (unravelIx [n] (ravelIx [n] j))⟩
  have e9 : [A, B].mapM (placeProb dm [ys.length]) = .ok [a', b'] := by
    simp [e6, e7, bind, Except.bind, pure, Except.pure]
  have hrun : ∀ q : Arr, q.shape = [n] → prodRuleArr [a', b'] [.lin 1, s] = .ok q →
      product fmt [A, B] = .ok (some (fitJoint fmt m n xs ys q s)) := by
    intro q hq hok
    have : productGeneral fmt [A, B] s false = pdInit fmt (margcondStr mm []) v (some dm) q s.spec := by
      unfold productGeneral
      simp only [e1, e2, e3, e4, bind, Except.bind]
      rw [show (cumFlags 0 [true, false, false]).getLast? = some 1 from rfl]
      simp only [Bool.false_eq_true, false_and, if_false, e5, e9]
      rw [show [A, B].map PD.pscale = [.lin 1, s] from rfl, hok]
      rfl
    rw [hprod, this]
    simp only [v, hx, hy]
    rw [fit_init_joint fmt m n xs ys hx hy q hq s hs.stable hfmt]
    rfl
  have hget : ∀ i, i < n → a'.bget [i] = a.get [i] ∧ b'.bget [i] = b.get [i] := by
    intro i hi
    have hi0 : (if n = 1 then 0 else i) = i := by split <;> omega
    constructor <;> simp [a', b', Arr.bget, hi0, ravelIx, unravelIx]
  rcases hs with rfl | rfl
  · refine ⟨⟨[n], fun j => a'.bget j * b'.bget j⟩, hrun _ rfl ?_, rfl, ?_⟩
    · simp only [prodRuleArr, applyProdArr, List.foldlM_cons, List.foldlM_nil, Arr.zip]
      simp [PScale.iscomplex, a', b', bshape_self, bind, Except.bind, pure, Except.pure]
    · intro i hi
      simp only [value_lin1, hget i hi]
  · refine ⟨⟨[n], fun j => (a'.map logProb).bget j + b'.bget j⟩, hrun _ rfl ?_, rfl, ?_⟩
    · simp only [prodRuleArr, applyProdArr, List.foldlM_cons, List.foldlM_nil, Arr.zip]
      simp [PScale.iscomplex, PScale.spec, PSpec.iscomplex, toCommon, Arr.map, List.foldlM_cons, List.foldlM_nil,
        Arr.zip, a', b', bshape_self, bind, Except.bind, pure, Except.pure]
    · intro i hi
      have h1 : (a'.map logProb).bget [i] = Real.log (a.get [i]) := by
        have : (a'.map logProb).bget [i] = logProb (a'.bget [i]) := rfl
        rw [this, (hget i hi).1]
        have := hpos i hi
        simp [logProb, not_lt.mpr this]
      simp only [value_log0, h1, hget i hi]
      rw [Real.exp_add, Real.exp_log (lt_of_lt_of_le npz_pos (hpos i hi))]

/-- The numbers of the posterior: on the logarithmic scale the largest is subtracted first,
so only their ratios matter. -/
theorem fit_condProb {s : PScale} (hs : FitScale s) {n : ℕ} (hn : 0 < n) {q : Arr} (hq : q.shape = [n])
    (hnn : ∀ k, k < n → 0 ≤ Spec.value s (q.get [k]))
    (hlin : s = .lin 1 → npz ≤ ∑ k ∈ Finset.range n, Spec.value s (q.get [k]))
    (hlog : s = .log 0 0 → ∀ k, k < n → npz * ∑ l ∈ Finset.range n, Spec.value s (q.get [l]) ≤ Spec.value s (q.get [k])) :
    ∃ R, condProb s true [0] q = .ok R ∧ R.shape = [n] ∧ ∀ k, k < n →
      Spec.value s (R.get [k]) = Spec.value s (q.get [k]) / ∑ l ∈ Finset.range n, Spec.value s (q.get [l]) := by
  classical
  have hidx : idx [n] = (Finset.range n).image fun k => [k] := by
    ext i
    simp only [mem_idx, Finset.mem_image, Finset.mem_range]
    constructor
    · intro h
      rcases h with _ | ⟨h1, h2⟩
      cases h2
      exact ⟨_, h1, rfl⟩
    · rintro ⟨a, ha, rfl⟩
      simp [ha]
  have hinj : Set.InjOn (fun k : ℕ => [k]) (Finset.range n : Set ℕ) := by
    intro a _ b _ hab; simpa using hab
  have hsum : ∀ f : List ℕ → ℝ, ∑ i ∈ idx [n], f i = ∑ k ∈ Finset.range n, f [k] := by
    intro f; rw [hidx, Finset.sum_image hinj]
  have hmem : ∀ k, k < n → [k] ∈ idx [n] := by
    intro k hk; simp [mem_idx, hk]
  have hall : ∀ j ∈ idx [n], ∃ k < n, j = [k] := by
    intro j hj
    rw [hidx, Finset.mem_image] at hj
    obtain ⟨k, hk, rfl⟩ := hj
    exact ⟨k, Finset.mem_range.mp hk, rfl⟩
  have hgrp : ∀ (r : Arr), r.shape = [n] → ∀ j ∈ idx [n], groupSum s [0] r j = ∑ k ∈ Finset.range n, Spec.value s (r.get [k]) := by
    intro r hr j hj
    obtain ⟨k, hk, rfl⟩ := hall j hj
    unfold groupSum
    rw [hr, Finset.filter_true_of_mem, hsum]
    intro i hi a ha
    obtain ⟨l, hl, rfl⟩ := hall i hi
    rcases a with _ | a
    · simp at ha
    · simp
  have hne : (idx q.shape).Nonempty := by rw [hq]; exact ⟨[0], hmem 0 hn⟩
  have hpz1 : npz ≤ 1 := npz_lt_one.le
  have hpi : 0 ≤ Real.log npi := Real.log_nonneg (by unfold npi; norm_num)
  rcases hs with rfl | rfl
  · set T := ∑ k ∈ Finset.range n, Spec.value (.lin 1) (q.get [k]) with hT
    have hTz := hlin rfl
    have hTpos : 0 < T := lt_of_lt_of_le npz_pos hTz
    obtain ⟨R, r1, r2, r3, -⟩ := condProb_ok lin1_stable true (sum := [0]) hne (by simp [hq])
    refine ⟨R, r1, r2.trans hq, ?_⟩
    intro k hk
    have hr : CondRange (.lin 1) true [0] q := by
      rw [← hq] at hgrp hall hsum
      refine ⟨show (0 : ℝ) < 1 by norm_num, fun _ _ => trivial, ?_, ?_, ?_, ?_⟩
      · intro j hj
        obtain ⟨k, hk, rfl⟩ := hall j hj
        exact hnn k hk
      · intro j hj
        rw [hgrp q rfl j hj]; exact hTz
      · intro _ j hj
        rw [hgrp q rfl j hj, hsum]
        calc npz * T ≤ 1 * T := by gcongr
          _ = T := one_mul _
      · intro _ re im h; simp at h
    rw [r3 hr (by simp) [k] (by rw [hq]; exact hmem k hk) trivial, hgrp q hq [k] (hmem k hk)]
  · obtain ⟨M, m1, m2, i0, hi0, m3⟩ := subMax_ok hne
    set p : Arr := q.map (· - M) with hp
    have hps : p.shape = [n] := hq
    have hpne : (idx p.shape).Nonempty := hne
    have hsub : subMax p = .ok p := by
      obtain ⟨N, n1, n2, i1, hi1, n3⟩ := subMax_ok hpne
      have hN : N = 0 := by
        apply le_antisymm
        · rw [← n3]
          have := m2 i1 hi1
          show q.get i1 - M ≤ 0
          linarith
        · have := n2 i0 hi0
          rw [show p.get i0 = q.get i0 - M from rfl, m3, sub_self] at this
          exact this
      rw [n1, hN]
      simp [Arr.map, hp]
    have hsame : condProb (.log 0 0) true [0] q = condProb (.log 0 0) true [0] p := by
      unfold condProb
      simp only [PScale.iscomplex, Bool.and_self, if_true]
      rw [m1, hsub]
    have hv : ∀ k, Spec.value (.log 0 0) (p.get [k]) = Real.exp (-M) * Spec.value (.log 0 0) (q.get [k]) := by
      intro k
      rw [value_log0, value_log0, ← Real.exp_add]
      congr 1
      show q.get [k] - M = _
      ring
    set T := ∑ k ∈ Finset.range n, Spec.value (.log 0 0) (q.get [k]) with hT
    have hTpos : 0 < T := by
      apply Finset.sum_pos
      · intro k _; rw [value_log0]; exact Real.exp_pos _
      · exact ⟨0, Finset.mem_range.mpr hn⟩
    have hTp : ∑ k ∈ Finset.range n, Spec.value (.log 0 0) (p.get [k]) = Real.exp (-M) * T := by
      rw [hT, Finset.mul_sum]
      exact Finset.sum_congr rfl fun k _ => hv k
    have hbig : 1 ≤ Real.exp (-M) * T := by
      rw [← hTp]
      obtain ⟨k0, hk0, rfl⟩ := hall i0 (by rw [← hq]; exact hi0)
      have h1 : Spec.value (.log 0 0) (p.get [k0]) = 1 := by
        rw [value_log0, show p.get [k0] = q.get [k0] - M from rfl, m3, sub_self, Real.exp_zero]
      rw [← h1]
      apply Finset.single_le_sum (f := fun k => Spec.value (.log 0 0) (p.get [k])) _ (Finset.mem_range.mpr hk0)
      intro k _
      show 0 ≤ Spec.value (.log 0 0) (p.get [k])
      rw [value_log0]
      exact (Real.exp_pos _).le
    have hst : evalPscale (PScale.log 0 0).spec = .ok (.log 0 0) := FitScale.stable (Or.inr rfl)
    obtain ⟨R, r1, r2, r3, -⟩ := condProb_ok hst true (sum := [0]) hpne (by simp [hps])
    refine ⟨R, hsame.trans r1, r2.trans hps, ?_⟩
    intro k hk
    have hr : CondRange (.log 0 0) true [0] p := by
      rw [← hps] at hgrp hall hsum
      refine ⟨trivial, ?_, ?_, ?_, ?_, ?_⟩
      · intro j hj
        refine ⟨?_, Or.inl (by rw [offset_plain, Real.log_one])⟩
        have := m2 j hj
        rw [offset_plain, Real.log_one, show p.get j = q.get j - M from rfl]
        linarith
      · intro j hj
        rw [value_log0]; exact (Real.exp_pos _).le
      · intro j hj
        rw [hgrp p rfl j hj, hTp]; linarith
      · intro _ j hj
        rw [hgrp p rfl j hj, hsum, hTp]
        calc npz * (Real.exp (-M) * T) ≤ 1 * (Real.exp (-M) * T) := by gcongr
          _ = _ := one_mul _
      · intro _ re im h
        simp only [PScale.log.injEq] at h
        obtain ⟨rfl, rfl⟩ := h
        rw [offset_plain, Real.exp_zero]
        exact ⟨hpz1, hpi⟩
    have hratio : Spec.value (.log 0 0) (p.get [k]) / groupSum (.log 0 0) [0] p [k] = Spec.value (.log 0 0) (q.get [k]) / T := by
      rw [hgrp p hps [k] (hmem k hk), hTp, hv]
      exact mul_div_mul_left _ _ (Real.exp_pos _).ne'
    rw [r3 hr (by simp) [k] (by rw [hps]; exact hmem k hk), hratio]
    rw [hratio]
    refine ⟨?_, Or.inl (by rw [offset_plain, Real.log_one])⟩
    rw [le_div_iff₀ hTpos]
    exact hlog rfl k hk

theorem fit_conditionalise (fmt : Val → Str) (m n : ℕ) (xs ys : List ℚ) (hx : xs.length = n)
    (hy : ys.length = n) (q R : Arr) (hq : q.shape = [n]) (hR : R.shape = [n]) {s : PScale} (hs : FitScale s)
    (hfmt : Spec.Entry ['o'] (eqText fmt ['o'] (.setint m)))
    (hok : condProb s true [0] ⟨[n], fun j => q.get [j.getD 0 0]⟩ = .ok R) :
    (fitJoint fmt m n xs ys q s).conditionalise fmt [['o']] = .ok (fitPost fmt m n xs ys R s) := by
  set d := fitJoint fmt m n xs ys q s with hd
  let dims : Dict Str (Option ℕ) := [(['x'], some 0), (['y'], some 0), (['o'], none)]
  have e0 : ([['o']].all fun x => decide (x ∈ d.marg.keys)) = true := rfl
  have e1 : d.vals.foldlM (condStep d [['o']]) ⟨d.marg, d.cond, [], false, 0⟩ =
      .ok ⟨[(['x'], ['x', '=', '[', ']']), (['y'], ['y', '=', '[', ']'])],
        [(['o'], eqText fmt ['o'] (.setint m))],
        [(['x'], some 0), (['y'], some 0), (['o'], none)], true, 0⟩ := rfl
  have e2 : condLower [(['x'], some 0), (['y'], some 0), (['o'], none)] =
      ([(['x'], some 0), (['y'], some 0), (['o'], none)], 0) := by decide
  have e3 : condRaise d [['o']] [(['x'], some 0), (['y'], some 0), (['o'], none)] 0 =
      .ok [(['x'], some 0), (['y'], some 0), (['o'], none)] := rfl
  have e4 : d.distRedim dims = .ok d.dist := by
    have : d.distRedim dims =
      distDims [(['x'], .arr [n] xs), (['y'], .arr [n] ys), (['o'], .setint m)] (some dims) := rfl
    rw [this]
    exact fit_dist fmt m n xs ys hx hy q s dims (Or.inr rfl)
  have e5 : d.keylist.foldlM (condAxesStep d [['o']] dims) ⟨[], [], []⟩ = .ok ⟨[0], [0], [0]⟩ := rfl
  have e6 : moveaxis d.prob [0] [0] = .ok ⟨[n], fun j => q.get [j.getD 0 0]⟩ := by
    show moveaxis q [0] [0] = _
    have : q = ⟨[n], q.get⟩ := by rw [← hq]
    rw [this]
    rfl
  unfold PD.conditionalise
  rw [if_pos e0, e1]
  simp only [bind, Except.bind]
  rw [e2, e3]
  simp only []
  rw [show (([(['x'], some 0), (['y'], some 0), (['o'], none)] : Dict Str (Option ℤ)).map
    fun kv => (kv.1, kv.2.map Int.toNat)) = dims from rfl, e4]
  simp only [e5]
  rw [e6]
  simp only [show d.pscale = s from rfl, hok]
  exact fit_init_post fmt m n xs ys hx hy R hR s hs.stable hfmt

theorem fit_call (fmt : Val → Str) (o x y : FCont) (ho : o.name = ['o']) (hx : x.name = ['x']) (hy : y.name = ['y'])
    (f : ℝ → ℝ → ℝ → ℝ) {s : PScale} (hs : FitScale s) (data : List ℚ) (hd : data ≠ []) (n : ℕ) (hn : 0 < n) :
    ∃ b, (fitDep o x y f s).callIid fmt [([['o']], .one (.array data)), ([['x'], ['y']], .one (.count (-n)))] =
        .ok (fitCond fmt data.length n ((List.range n).map x.draw) ((List.range n).map y.draw) b s) ∧ b.shape = [n] ∧
      ∀ k, k < n → Spec.value s (b.get [k]) =
        ∏ i ∈ Finset.range data.length, Spec.value s (f (data.getD i 0 : ℚ) (x.draw k : ℚ) (y.draw k : ℚ)) := by
  obtain ⟨no, od, og, oi, op, os⟩ := o
  obtain ⟨nx, dx, gx, ix, px, sx⟩ := x
  obtain ⟨ny, dy, gy, iy, py, sy⟩ := y
  simp only at ho hx hy
  subst ho hx hy
  obtain ⟨l, rfl⟩ : ∃ l, n = l + 1 := ⟨n - 1, by omega⟩
  set xs := (List.range (l + 1)).map dx with hxs
  set ys := (List.range (l + 1)).map dy with hys
  have hx : xs.length = l + 1 := by simp [hxs]
  have hy : ys.length = l + 1 := by simp [hys]
  have hm : 0 < data.length := List.length_pos_iff.mpr hd
  let es : JReqs := [([['o']], [.array data]), ([['x'], ['y']], [.count (Int.negSucc l), .count (Int.negSucc l)])]
  set D := fitDep ⟨['o'], od, og, oi, op, os⟩ ⟨['x'], dx, gx, ix, px, sx⟩ ⟨['y'], dy, gy, iy, py, sy⟩ f s with hD
  have e1 : jParse D.vars [([['o']], .one (.array data)), ([['x'], ['y']], .one (.count (-((l + 1 : ℕ) : ℤ))))] =
      .ok es := rfl
  have e2 : jEvaluate D.vars es = .ok ([(['o'], ⟨.array data, [data.length, 1]⟩),
      (['x'], ⟨.array xs, [1, xs.length]⟩), (['y'], ⟨.array ys, [1, ys.length]⟩)],
      [(['o'], some 0), (['x'], some 1), (['y'], some 1)]) := rfl
  obtain ⟨q, q1, q2, q3⟩ := elementwise_ok f data.length (l + 1) data xs ys [(['o'], some 0), (['x'], some 1), (['y'], some 1)]
  obtain ⟨b, b1, b2, b3⟩ := fit_prod fmt data.length (l + 1) hn data xs ys rfl hx hy q q2 hs
  refine ⟨b, ?_, b2, ?_⟩
  · unfold JDep.callIid
    rw [e1]
    simp only [bind, Except.bind]
    rw [e2, hx, hy]
    simp only
    rw [show D.prob = elementwise f from rfl, q1]
    simp only []
    unfold JDep.evalIid
    rw [if_neg (by simp [hD, fitDep]), if_pos (Or.inr (by rw [q2]; rfl))]
    simp only [bind, Except.bind]
    have e3 : pdInit fmt (D.distName fmt es) ([(['o'], ⟨.array data, [data.length, 1]⟩),
        (['x'], ⟨.array xs, [1, l + 1]⟩), (['y'], ⟨.array ys, [1, l + 1]⟩)].map fun kl => (kl.1, Laid.toVal kl.2))
        (some [(['o'], some 0), (['x'], some 1), (['y'], some 1)]) q D.pscale.spec =
        .ok (fitCall data.length (l + 1) data xs ys q s) :=
      fit_init_call fmt data.length (l + 1) hm hn data xs ys rfl hx hy q q2 s hs.stable
    rw [e3]
    exact b1
  · intro k hk
    have e1 : xs.getD k 0 = dx k := by simp [hxs, List.getD, hk]
    have e2 : ys.getD k 0 = dy k := by simp [hys, List.getD, hk]
    rw [b3 k hk]
    apply Finset.prod_congr rfl
    intro i hi
    rw [q3 i k (Finset.mem_range.mp hi) hk, e1, e2]

theorem fit_post_wf (fmt : Val → Str) (m n : ℕ) (xs ys : List ℚ)
    (hx : xs.length = n) (hy : ys.length = n) (q : Arr) (hq : q.shape = [n]) {s : PScale} (hs : FitScale s)
    (hfmt : Spec.Entry ['o'] (eqText fmt ['o'] (.setint m))) :
    (fitPost fmt m n xs ys q s).WF fmt ∧ (fitPost fmt m n xs ys q s).Placed ∧
      (fitPost fmt m n xs ys q s).values ['x'] = some (.arr [n] xs) ∧
      (fitPost fmt m n xs ys q s).values ['y'] = some (.arr [n] ys) := by
  let mg : Dict Str Str := [(['x'], ['x', '=', '[', ']']), (['y'], ['y', '=', '[', ']'])]
  let cd : Dict Str Str := [(['o'], eqText fmt ['o'] (.setint m))]
  let v : Dict Str Val := [(['x'], .arr [n] xs), (['y'], .arr [n] ys), (['o'], .setint m)]
  let dm : Dict Str (Option ℕ) := [(['x'], some 0), (['y'], some 0), (['o'], none)]
  have hBA : BuildArgs fmt mg cd v dm [n] := by
    have hget : ∀ k w, Dict.get? v k = some w → (k = ['x'] ∧ w = .arr [n] xs) ∨
        (k = ['y'] ∧ w = .arr [n] ys) ∨ (k = ['o'] ∧ w = .setint m) := by
      intro k w hw
      have := Dict.get?_mem hw
      simpa [v] using this
    refine ⟨by simp [v], ?_, ?_, ?_, ?_, ?_, ?_, ?_, ?_, ?_, ?_, ?_⟩
    · show [['x'], ['y'], ['o']].Nodup; decide
    · show ∀ k ∈ [['x'], ['y'], ['o']], k ∉ disallowed; decide
    · decide
    · refine ⟨show [['o']].Nodup by decide, ?_⟩
      intro kv hkv
      simp only [cd, List.mem_cons, List.not_mem_nil, or_false] at hkv
      subst hkv
      exact hfmt
    · show ∀ k ∈ [['x'], ['y']], k ∉ [['o']]; decide
    · intro k; show k ∈ [['x'], ['y'], ['o']] ↔ k ∈ [['x'], ['y']] ∨ k ∈ [['o']]
      simp only [List.mem_cons, List.not_mem_nil, or_false]; tauto
    · show [['x'], ['y'], ['o']].Nodup; decide
    · intro k hk; exact hk
    · intro k w hw hs
      rcases hget k w hw with ⟨rfl, rfl⟩ | ⟨rfl, rfl⟩ | ⟨rfl, rfl⟩
      · simp [Val.issingleton] at hs
      · simp [Val.issingleton] at hs
      · exact ⟨rfl, Or.inr rfl⟩
    · intro k w hw hs
      rcases hget k w hw with ⟨rfl, rfl⟩ | ⟨rfl, rfl⟩ | ⟨rfl, rfl⟩
      · exact ⟨_, _, 0, rfl, by simp [hx], rfl, by simp [hx]⟩
      · exact ⟨_, _, 0, rfl, by simp [hy], rfl, by simp [hy]⟩
      · simp [Val.issingleton] at hs
    · intro a ha
      rcases a with _ | a
      · exact ⟨['x'], rfl⟩
      · simp at ha
  obtain ⟨r, i1, i2, i3, i4, i5, i6, i7, i8, i9⟩ := pdInit_ok hBA q hq s.spec s hs.stable
  have hr : r = fitPost fmt m n xs ys q s := by
    have := fit_init_post fmt m n xs ys hx hy q hq s hs.stable hfmt
    rw [i1] at this
    exact Except.ok.inj this
  subst hr
  refine ⟨i2, hBA.placed i2 i5 i6 i7, ?_, ?_⟩
  · rw [hBA.values i5]; simp [v, Dict.get?, Val.flat, hx]
  · rw [hBA.values i5]; simp [v, Dict.get?, Val.flat, hy]

end Probayes
