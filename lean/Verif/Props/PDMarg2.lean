/-
C15: where the claim fails, an instance; C16.
-/
import Verif.Props.PDMarg
import Verif.Props.PDWF
import Mathlib.Tactic.NormNum

namespace Probayes

/-! ### where C15 fails -/

theorem margLoop_vals (d : PD) (keys : List Str) (l : Dict Str Val) :
    ∀ st st' : MargState, (∀ k ∈ Dict.keys l, k ∈ keys) → st.vals = [] →
      l.foldlM (margStep d keys) st = .ok st' → st'.vals = [] := by
  induction l with
  | nil =>
    intro st st' _ hs h
    simp only [List.foldlM_nil, pure, Except.pure, Except.ok.injEq] at h
    rw [← h, hs]
  | cons kv l ih =>
    intro st st' hk hs h
    obtain ⟨k, v⟩ := kv
    rw [List.foldlM_cons] at h
    have hkk : k ∈ keys := hk k (by simp)
    rcases hst : margStep d keys st (k, v) with e | st1
    · rw [hst] at h; simp [bind, Except.bind] at h
    · rw [hst] at h
      refine ih st1 st' (fun k hk' => hk k (by simp [hk'])) ?_ h
      simp only [margStep, hkk, if_true] at hst
      by_cases hsing : v.issingleton = true
      · simp [hsing] at hst
      · simp only [hsing, if_false, bind, Except.bind] at hst
        rcases hd : dimOf d.dims k with e | o
        · simp [hd] at hst
        · simp only [hd] at hst
          rcases o with _ | a
          · simp at hst
          · simp only [Bool.false_eq_true, if_false] at hst
            by_cases hkm : k ∈ st.marg.keys
            · simp only [hkm, if_true, pure, Except.pure, Except.ok.injEq] at hst
              rw [← hst]; exact hs
            · simp [hkm] at hst

/-- C15 fails: summing out every variable never succeeds. -/
theorem C15_all_refused (fmt : Val → Str) (d : PD) (keys : List Str)
    (h : ∀ k ∈ d.keylist, k ∈ keys) : Raises (d.marginalise fmt keys) := by
  unfold PD.marginalise
  split
  · rcases h1 : d.vals.foldlM (margStep d keys) ⟨d.marg, [], [], 0, []⟩ with e | st
    · exact ⟨e, rfl⟩
    · have hv := margLoop_vals d keys d.vals _ st h rfl h1
      simp only [bind, Except.bind]
      rcases rescaleArr d.prob d.pscale.spec (.flt 1) with e | P
      · exact ⟨e, rfl⟩
      simp only
      rcases sumAxes st.axes P with e | Q
      · exact ⟨e, rfl⟩
      simp only
      rcases rescaleArr Q (.flt 1) d.pscale.spec with e | R
      · exact ⟨e, rfl⟩
      simp only [hv]
      unfold pdInit
      rcases strMargcond (margcondStr st.marg d.cond) with e | mc
      · exact ⟨e, rfl⟩
      rcases evalPscale d.pscale.spec with e | p
      · exact ⟨e, rfl⟩
      · exact ⟨.assertion, by simp [bind, Except.bind, distDims, probOK, pure, Except.pure]⟩
  · exact ⟨_, rfl⟩

/-- Construction, step by step (for concrete cases). -/
theorem pdInit_eval {fmt : Val → Str} {name : Str} {vals : Dict Str Val}
    {dims : Option (Dict Str (Option ℕ))} {prob : Arr} {ps : PSpec} {p : PScale} {dist : Dist}
    {mc mc' : Dict Str Str × Dict Str Str}
    (h1 : strMargcond name = .ok mc) (h2 : distDims vals dims = .ok dist)
    (h3 : dist.vals.foldlM (nameStep fmt) mc = .ok mc') (h4 : evalPscale ps = .ok p)
    (h5 : probOK dist prob = true) :
    pdInit fmt name vals dims prob ps = .ok ⟨margcondStr mc'.1 mc'.2, mc'.1, mc'.2, dist, prob, p⟩ := by
  simp [pdInit, h1, h2, h3, h4, h5, bind, Except.bind, pure, Except.pure]

theorem entry_plain {k : Str} (h1 : k ≠ []) (h2 : ',' ∉ k) (h3 : '|' ∉ k) (h4 : '(' ∉ k)
    (h5 : ')' ∉ k) (h6 : '=' ∉ k) : Spec.Entry k k :=
  ⟨h1, h2, h3, h4, h5, Or.inr ⟨rfl, Or.inl h6⟩⟩

theorem entry_value {k v : Str} (h1 : k ≠ []) (h2 : ',' ∉ k ++ '=' :: v) (h3 : '|' ∉ k ++ '=' :: v)
    (h4 : '(' ∉ k ++ '=' :: v) (h5 : ')' ∉ k ++ '=' :: v) (h6 : '=' ∉ k) :
    Spec.Entry k (k ++ '=' :: v) :=
  ⟨by simp, h2, h3, h4, h5, Or.inl ⟨⟨v, rfl⟩, h1, h6⟩⟩

/-- p(x) over two values. -/
noncomputable def sample1 : PD :=
  ⟨['x'], [(['x'], ['x'])], [],
   ⟨[(['x'], .arr [2] [1, 2])], [(['x'], some 0)], 1, [2], [2], 2, [false], false⟩,
   ⟨[2], fun i => if i = [0] then 1 / 3 else 2 / 3⟩, .lin 1⟩

theorem sample1_wf (fmt : Val → Str) : sample1.WF fmt := by
  refine (C13_default_wf fmt ['x'] [(['x'], .arr [2] [1, 2])]
    ⟨[2], fun i => if i = [0] then 1 / 3 else 2 / 3⟩ .none sample1 [(['x'], ['x'])] []
    (by decide) (by decide) ⟨rfl, ⟨by decide, ?_⟩, ⟨by decide, by simp⟩, by decide, ?_, ?_⟩ rfl).1
  · intro kv hkv
    simp only [List.mem_singleton] at hkv
    subst hkv
    exact entry_plain (by decide) (by decide) (by decide) (by decide) (by decide) (by decide)
  · intro k; simp [Dict.keys]
  · intro kv hkv hs
    simp only [List.mem_singleton] at hkv
    subst hkv
    simp [Val.fixNone, Val.issingleton] at hs

theorem readable_lin {d : PD} {c : ℝ} (h : d.pscale = .lin c) (hc : 0 < c) : Spec.Readable d := by
  refine ⟨by rw [h]; exact hc, fun i _ => ?_⟩
  rw [h]; trivial

theorem writable_lin {c : ℝ} (x : ℝ) : Spec.Writable (.lin c) x := trivial

/-- C15 as intended does not hold. -/
theorem C15_claim_fails : ¬ C15_claim := by
  intro h
  obtain ⟨r, hr, _⟩ := h (fun _ => []) sample1 [['x']] (sample1_wf _)
    (by intro n hn; simp only [sample1, PD.shape, List.mem_singleton] at hn; omega) (readable_lin rfl one_pos)
    (by intro k hk; simp only [List.mem_singleton] at hk; subst hk; exact ⟨by decide, by decide⟩)
    (by
      intro k hk k' a h1 h2
      simp only [List.mem_singleton] at hk
      subst hk
      have := (sample1_wf fun _ => []).dimKeys k' (Dict.mem_keys_of_get? (join_eq_some.mp h2))
      simpa only [sample1, PD.vals, Dict.keys, List.map_cons, List.map_nil, List.mem_singleton] using this)
  obtain ⟨e, he⟩ := C15_all_refused (fun _ => []) sample1 [['x']] (by
    intro k hk
    simpa only [sample1, PD.keylist, Dict.keys, List.map_cons, List.map_nil] using hk)
  rw [hr] at he
  simp at he

/-- p(x, y, u=1 | z), 2×3×2 entries. -/
noncomputable def sample3 : PD :=
  ⟨['x', ',', 'y', ',', 'u', '=', '1', '|', 'z'], [(['x'], ['x']), (['y'], ['y']), (['u'], ['u', '=', '1'])],
   [(['z'], ['z'])],
   ⟨[(['x'], .arr [2] [1, 2]), (['y'], .arr [1, 3] [4, 5, 6]), (['u'], .scalar 1),
     (['z'], .arr [1, 1, 2] [7, 8])],
    [(['x'], some 0), (['y'], some 1), (['u'], none), (['z'], some 2)],
    3, [2, 3, 2], [2, 3, 2], 12, [false, false, true, false], false⟩,
   ⟨[2, 3, 2], fun _ => 1 / 6⟩, .lin 1⟩

theorem sample3_wf : sample3.WF (fun _ => ['1']) ∧ Spec.Ordered sample3 ∧
    ∀ k, Spec.OwnAxis sample3 k := by
  have hinit : pdInit (fun _ => ['1']) ['x', ',', 'y', ',', 'u', '|', 'z']
      [(['x'], .arr [2] [1, 2]), (['y'], .arr [3] [4, 5, 6]), (['u'], .scalar 1),
       (['z'], .arr [2] [7, 8])] none ⟨[2, 3, 2], fun _ => 1 / 6⟩ .none = .ok sample3 :=
    (pdInit_eval (mc := ([(['x'], ['x']), (['y'], ['y']), (['u'], ['u'])], [(['z'], ['z'])]))
      (dist := sample3.dist) (mc' := (sample3.marg, sample3.cond)) (p := .lin 1)
      rfl rfl rfl rfl rfl).trans rfl
  obtain ⟨h1, h2, h3, _⟩ := C13_default_wf (fun _ => ['1']) ['x', ',', 'y', ',', 'u', '|', 'z']
    [(['x'], .arr [2] [1, 2]), (['y'], .arr [3] [4, 5, 6]), (['u'], .scalar 1),
     (['z'], .arr [2] [7, 8])]
    ⟨[2, 3, 2], fun _ => 1 / 6⟩ .none sample3
    [(['x'], ['x']), (['y'], ['y']), (['u'], ['u'])]
    [(['z'], ['z'])]
    (by decide) (by decide) ⟨rfl, ⟨by decide, by
      intro kv hkv
      simp only [List.mem_cons, List.not_mem_nil, or_false] at hkv
      rcases hkv with rfl | rfl | rfl <;>
        exact entry_plain (by decide) (by decide) (by decide) (by decide) (by decide) (by decide)⟩,
      ⟨by decide, by
      intro kv hkv
      simp only [List.mem_cons, List.not_mem_nil, or_false] at hkv
      subst hkv
      exact entry_plain (by decide) (by decide) (by decide) (by decide) (by decide) (by decide)⟩,
      by decide, by intro k; simp [Dict.keys]; tauto, by
      intro kv hkv hs
      simp only [List.mem_cons, List.not_mem_nil, or_false] at hkv
      rcases hkv with rfl | rfl | rfl | rfl
      all_goals first
        | exact entry_value (by decide) (by decide) (by decide) (by decide) (by decide) (by decide)
        | simp [Val.fixNone, Val.issingleton] at hs⟩ hinit
  refine ⟨h1, h3.imp fun hxy a b ha hb => le_of_lt (hxy a b ha hb), ?_⟩
  intro k k' a hk hk'
  have m1 := h1.dimKeys k (Dict.mem_keys_of_get? (join_eq_some.mp hk))
  have m2 := h1.dimKeys k' (Dict.mem_keys_of_get? (join_eq_some.mp hk'))
  simp only [sample3, PD.vals, Dict.keys, List.map_cons, List.map_nil, List.mem_cons,
    List.not_mem_nil, or_false] at m1 m2
  have e1 : sample3.axis ['x'] = some 0 := rfl
  have e2 : sample3.axis ['y'] = some 1 := rfl
  have e3 : sample3.axis ['u'] = none := rfl
  have e4 : sample3.axis ['z'] = some 2 := rfl
  rcases m1 with rfl | rfl | rfl | rfl <;> rcases m2 with rfl | rfl | rfl | rfl <;>
    simp_all <;> omega

/-- Non-vacuity of `C15_marginalise_partial`: y of p(x, y, u=1 | z). -/
example : ∃ r, sample3.marginalise (fun _ => ['1']) [['y']] = .ok r ∧
    r.WF (fun _ => ['1']) ∧ Spec.SummedOut sample3 [['y']] r :=
  C15_marginalise_partial _ sample3 [['y']] sample3_wf.1
    (by intro n hn; simp only [sample3, PD.shape, List.mem_cons, List.not_mem_nil, or_false] at hn; omega) (readable_lin rfl one_pos)
    (by intro k hk; simp only [List.mem_singleton] at hk; subst hk; exact ⟨by decide, by decide⟩)
    (fun k _ => sample3_wf.2.2 k) sample3_wf.2.1 ⟨['x'], by decide, by decide⟩


/-- p(a, r, s, b) with a, b on axes 1, 2 and r, s (one value each) on axes 0, 3;
proportional to a's position plus twice b's. -/
noncomputable def sample4 : PD :=
  ⟨['a', ',', 'r', ',', 's', ',', 'b'],
   [(['a'], ['a']), (['r'], ['r']), (['s'], ['s']), (['b'], ['b'])], [],
   ⟨[(['a'], .arr [1, 2, 1, 1] [1, 2]), (['r'], .arr [1, 1, 1, 1] [3]),
     (['s'], .arr [1, 1, 1, 1] [4]), (['b'], .arr [1, 1, 2, 1] [5, 6])],
    [(['a'], some 1), (['r'], some 0), (['s'], some 3), (['b'], some 2)],
    4, [2, 1, 1, 2], [1, 2, 2, 1], 4, [false, false, false, false], false⟩,
   ⟨[1, 2, 2, 1], fun i => ((i.getD 1 0 + 2 * i.getD 2 0 : ℕ) : ℝ) / 6⟩, .lin 1⟩

theorem sample4_wf : sample4.WF (fun _ => []) := by
  have hinit : pdInit (fun _ => []) ['a', ',', 'r', ',', 's', ',', 'b']
      [(['a'], .arr [2] [1, 2]), (['r'], .arr [1] [3]), (['s'], .arr [1] [4]),
       (['b'], .arr [2] [5, 6])]
      (some [(['a'], some 1), (['r'], some 0), (['s'], some 3), (['b'], some 2)])
      sample4.prob .none = .ok sample4 :=
    (pdInit_eval (mc := (sample4.marg, [])) (dist := sample4.dist) (mc' := (sample4.marg, []))
      (p := .lin 1) rfl rfl rfl rfl rfl).trans rfl
  refine (C13_given_wf _ _ _ _ _ _ _ sample4.marg [] (by decide) (by decide) ?_ (by decide) (by decide)
    ⟨rfl, ⟨by decide, ?_⟩, ⟨by decide, by simp⟩, by decide, ?_, ?_⟩ hinit).1
  · intro kv hkv kv' hkv' a s data s' data' h1 h2 h3 h4
    simp only [List.mem_cons, List.not_mem_nil, or_false] at hkv hkv'
    rcases hkv with rfl | rfl | rfl | rfl <;> rcases hkv' with rfl | rfl | rfl | rfl <;>
      simp_all [Dict.get?] <;> omega
  · intro kv hkv
    simp only [sample4, List.mem_cons, List.not_mem_nil, or_false] at hkv
    rcases hkv with rfl | rfl | rfl | rfl <;>
      exact entry_plain (by decide) (by decide) (by decide) (by decide) (by decide) (by decide)
  · intro k; simp [Dict.keys, sample4]
  · intro kv hkv hs
    simp only [List.mem_cons, List.not_mem_nil, or_false] at hkv
    rcases hkv with rfl | rfl | rfl | rfl <;> simp [Val.fixNone, Val.issingleton] at hs

/-- C15 fails also silently: with axes out of key order, summing out r and s
exchanges the axes of a and b, and the result is not the marginal. -/
theorem C15_unordered_wrong : ∃ r, sample4.marginalise (fun _ => []) [['r'], ['s']] = .ok r ∧
    r.keylist = [['a'], ['b']] ∧ r.axis ['a'] = some 1 ∧ r.axis ['b'] = some 0 ∧ r.shape = [2, 2] ∧
    -- at the first value of a and the second of b: 1/6 instead of 2/6
    sample4.at [0, 0, 1, 0] = 2 / 6 ∧ r.at [1, 0] = 1 / 6 ∧
    ¬ Spec.SummedOut sample4 [['r'], ['s']] r := by
  let Q : Arr := ⟨[2, 2], fun j => ∑ i ∈ (idx [1, 2, 2, 1]).filter
    (fun i => dropAxes (· ∈ [0, 3]) i = j), sample4.prob.get i⟩
  let r : PD := ⟨['a', ',', 'b'], [(['a'], ['a']), (['b'], ['b'])], [],
   ⟨[(['a'], .arr [1, 2] [1, 2]), (['b'], .arr [2, 1] [5, 6])],
    [(['a'], some 1), (['b'], some 0)], 2, [2, 2], [2, 2], 4, [false, false], false⟩, Q, .lin 1⟩
  have hr1 : rescaleArr sample4.prob sample4.pscale.spec (.flt 1) = .ok sample4.prob := by
    have : evalPscale sample4.pscale.spec = .ok (.lin 1) := by
      simp [sample4, PScale.spec, evalPscale_one]
    simp only [rescaleArr, this, evalPscale_one, bind, Except.bind, pure, Except.pure]
    simp [rescaleE, Arr.map]
  have hr2 : sumAxes [0, 3] sample4.prob = .ok Q := by
    rw [sumAxes, if_pos (by decide)]; rfl
  have hr3 : rescaleArr Q (.flt 1) sample4.pscale.spec = .ok Q := by
    have : evalPscale sample4.pscale.spec = .ok (.lin 1) := by
      simp [sample4, PScale.spec, evalPscale_one]
    simp only [rescaleArr, this, evalPscale_one, bind, Except.bind, pure, Except.pure]
    simp [rescaleE, Arr.map]
  have hstable : evalPscale sample4.pscale.spec = .ok (.lin 1) := by
    simp [sample4, PScale.spec, evalPscale_one]
  have hloop : sample4.vals.foldlM (margStep sample4 [['r'], ['s']]) ⟨sample4.marg, [], [], 0, []⟩
      = .ok ⟨[(['a'], ['a']), (['b'], ['b'])],
        [(['a'], .arr [1, 2, 1, 1] [1, 2]), (['b'], .arr [1, 1, 2, 1] [5, 6])],
        [(['a'], some 1), (['b'], some 0)], 2, [0, 3]⟩ := rfl
  have hok : sample4.marginalise (fun _ => []) [['r'], ['s']] = .ok r := by
    rw [PD.marginalise, if_pos (by decide), hloop]
    simp only [bind, Except.bind, hr1, hr2, hr3]
    exact (pdInit_eval (mc := (r.marg, [])) (dist := r.dist) (mc' := (r.marg, [])) (p := .lin 1)
      rfl rfl rfl hstable rfl).trans rfl
  have hat : r.at [1, 0] = 1 / 6 := by
    have hf : (idx [1, 2, 2, 1]).filter (fun i => dropAxes (· ∈ [0, 3]) i = [1, 0]) = {[0, 1, 0, 0]} := by
      decide
    show Spec.value (.lin 1) (∑ i ∈ (idx [1, 2, 2, 1]).filter
      (fun i => dropAxes (· ∈ [0, 3]) i = [1, 0]), sample4.prob.get i) = _
    rw [hf]
    simp [Spec.value, sample4]
  have hat4 : sample4.at [0, 0, 1, 0] = 2 / 6 := by
    simp [PD.at, Spec.value, sample4]
  refine ⟨r, hok, rfl, rfl, rfl, rfl, hat4, hat, ?_⟩
  intro hS
  have h1 := hS.entry [1, 0] (by decide) trivial
  rw [hat] at h1
  classical
  have h2 : (idx sample4.shape).filter (fun i => Spec.Agree sample4 r i [1, 0]) = {[0, 0, 1, 0]} := by
    have e1 : sample4.axis ['a'] = some 1 := rfl
    have e2 : sample4.axis ['b'] = some 2 := rfl
    have f1 : r.axis ['a'] = some 1 := rfl
    have f2 : r.axis ['b'] = some 0 := rfl
    ext i
    rw [Finset.mem_filter, Finset.mem_singleton]
    constructor
    · rintro ⟨hi, hag⟩
      have g1 := hag _ _ _ e1 f1
      have g2 := hag _ _ _ e2 f2
      have hall : ∀ i ∈ idx [1, 2, 2, 1], i[1]? = some 0 → i[2]? = some 1 → i = [0, 0, 1, 0] := by decide
      exact hall i hi g1 g2
    · rintro rfl
      refine ⟨by decide, ?_⟩
      intro k a b ha hb
      have hk : k = ['a'] ∨ k = ['b'] := by
        have hb' := join_eq_some.mp hb
        by_contra hc
        rw [not_or] at hc
        simp [r, Dict.get?, Ne.symm hc.1, Ne.symm hc.2] at hb'
      rcases hk with rfl | rfl
      · rw [e1] at ha; rw [f1] at hb
        simp only [Option.some.injEq] at ha hb
        subst ha hb; rfl
      · rw [e2] at ha; rw [f2] at hb
        simp only [Option.some.injEq] at ha hb
        subst ha hb; rfl
  have h3 : Spec.sumAt sample4 r [1, 0] = 2 / 6 := by
    unfold Spec.sumAt
    rw [show (idx sample4.shape).filter (fun i => Spec.Agree sample4 r i [1, 0]) = {[0, 0, 1, 0]} from by
      convert h2, Finset.sum_singleton, hat4]
  rw [h3] at h1
  norm_num at h1

end Probayes
