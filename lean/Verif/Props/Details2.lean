/-
Further statements of C13, C19, C46, C77, C79, C93, C100 and C103, found missing by editing the model.
-/
import Verif.Props.PDCounts
import Verif.Props.Expression
import Verif.Props.RVContState
import Verif.Props.FieldCall
import Verif.Props.RVState
import Verif.Props.SPRule

namespace Probayes

/-- C100: taking away the cumulative functions is never refused, with a transform or without. -/
theorem C100_removable (s : CState) :
    (s.apply (.pfun none)).2 = none ∧ (s.apply (.pfun none)).1.pfun = none ∧
      (s.apply (.pfun none)).1.ufun = s.ufun := by
  refine ⟨by simp [CState.apply, CState.setPfun], rfl, rfl⟩

/-- C46: delta and order cannot both be set, whichever comes last. -/
theorem C46_delta_refused (s : ExprMaps) (m : Dict Str Route) :
    (∀ o, s.order = some o → (setDelta s (some m)).2 = some .assertion) ∧
    (s.order = none → ∀ e, checkMapping m = .error e → (setDelta s (some m)).2 = some e) ∧
    (s.order = none → checkMapping m = .ok () → setDelta s (some m) = (⟨none, some m⟩, none)) := by
  refine ⟨fun o h => by simp [setDelta, h], fun h e he => by simp [setDelta, h, he], fun h he => ?_⟩
  rcases s with ⟨o, d⟩
  simp only at h
  subst h
  simp [setDelta, he]

/-- The values that need no axis: numbers, sets of one number or of None, and arrays without
axes. -/
inductive Spec.Axisless : Val → Prop
  | number (x : ℚ) : Spec.Axisless (.scalar x)
  | integer (n : ℤ) : Spec.Axisless (.setint n)
  | float (x : ℚ) : Spec.Axisless (.setflt x)
  | none : Spec.Axisless .setnone
  | point (data : List ℚ) : Spec.Axisless (.arr [] data)

theorem axisless_iff (v : Val) : Spec.Axisless v ↔ v.fixNone.issingleton = true := by
  constructor
  · intro h
    cases h <;> rfl
  · intro h
    cases v with
    | scalar x => exact .number x
    | setint n => exact .integer n
    | setflt x => exact .float x
    | setnone => exact .none
    | arr s data =>
      have : s = [] := by simpa [Val.fixNone, Val.issingleton] using h
      subst this
      exact .point data
    | other => simp [Val.fixNone, Val.issingleton] at h

/-- C13: a distribution is a singleton exactly if none of its values needs an axis, and says so of
each variable. -/
theorem C13_singleton (vals : Dict Str Val) (dims : Option (Dict Str (Option ℕ))) (d : Dist) (hne : vals ≠ [])
    (h : distDims vals dims = .ok d) :
    (d.issingleton = true ↔ ∀ kv ∈ vals, Spec.Axisless kv.2) ∧
    d.aresingleton.length = vals.length ∧
    ∀ i (hi : i < vals.length), d.aresingleton[i]? = some true ↔ Spec.Axisless vals[i].2 := by
  have hne : vals.isEmpty = false := by simpa using hne
  unfold distDims at h
  simp only [hne, Bool.false_eq_true, if_false] at h
  split at h
  · simp at h
  · rcases hf : List.foldlM (dimsStep dims.isNone) ⟨[], dims.getD [], List.replicate (maxDim (dims.getD [])) none,
      maxDim (dims.getD []), 0, []⟩ (vals.map fun kv => (kv.1, kv.2.fixNone)) with e | st
    · simp [hf, bind, Except.bind] at h
    · simp only [hf, bind, Except.bind] at h
      split at h
      · simp at h
      · simp only [pure, Except.pure, Except.ok.injEq] at h
        subst h
        refine ⟨?_, by simp, ?_⟩
        · simp only [List.all_map, List.all_eq_true, Function.comp_def]
          exact forall₂_congr fun kv _ => (axisless_iff kv.2).symm
        · intro i hi
          rw [axisless_iff]
          simp [List.getElem?_map, List.getElem?_eq_getElem hi]

/-- C13: variables named `attrs`, `prob` or `pscale` are refused. -/
theorem C13_reserved (vals : Dict Str Val) (dims : Option (Dict Str (Option ℕ))) (k : Str) (hk : k ∈ vals.keys)
    (hr : k = ['a', 't', 't', 'r', 's'] ∨ k = ['p', 'r', 'o', 'b'] ∨ k = ['p', 's', 'c', 'a', 'l', 'e']) :
    distDims vals dims = .error .value ∧
    ∀ fmt name prob pscale, Raises (pdInit fmt name vals dims prob pscale) := by
  have hd : k ∈ disallowed := by
    rcases hr with rfl | rfl | rfl <;> decide
  have hne : vals.isEmpty = false := by cases vals <;> simp_all [Dict.keys]
  have h1 : distDims vals dims = .error .value := by
    unfold distDims
    simp only [hne, Bool.false_eq_true, if_false]
    rw [if_pos]
    rw [List.any_eq_true]
    exact ⟨k, hk, by simpa using hd⟩
  refine ⟨h1, fun fmt name prob pscale => ?_⟩
  unfold pdInit
  rcases strMargcond name with e | mc
  · exact ⟨e, rfl⟩
  · exact ⟨.value, by simp only [bind, Except.bind, h1]⟩

/-- Non-vacuity of `C13_singleton`. -/
example : ∃ d, distDims [(['x'], .setflt (5 / 2)), (['y'], .arr [2] [1, 2])] none = .ok d ∧ d.issingleton = false ∧
    d.aresingleton = [true, false] := ⟨_, rfl, rfl, rfl⟩

/-- p(x={1} | u) with the values of u first in order. -/
noncomputable def crossedPD : PD :=
  ⟨['x', '=', '2', '|', 'u'], [(['x'], ['x', '=', '2'])], [(['u'], ['u'])],
   ⟨[(['u'], .arr [2] [3, 4]), (['x'], .setint 1)], [(['u'], some 0), (['x'], none)], 1, [2], [2], 2,
    [false, true], false⟩,
   ⟨[2], fun _ => 1 / 4⟩, .lin 1⟩

/-- C19: numbers of observations are only added up if they come before the conditions in the order
of the values; with a condition first the product raises. -/
theorem C19_counts_order_raises : crossedPD.WF (fun _ => ['2']) ∧
    product (fun _ => ['2']) [crossedPD, crossedPD] = .error .assertion := by
  refine ⟨PD.wf_of_check rfl rfl lin1_stable, ?_⟩
  unfold product
  have hp := productPscale_one crossedPD crossedPD rfl rfl
  have hd : ¬ (List.flatMap (fun a : PD => a.marg.keys) [crossedPD, crossedPD]).Nodup := by
    show ¬ [['x'], ['x']].Nodup; decide
  have hu : unitSets [crossedPD, crossedPD] none none none = .ok (some [true]) := rfl
  simp only [hp, bind, Except.bind, hd, not_false_eq_true, if_true, hu]
  rfl

/-- C103: `{0}` asked for several variables jointly does not change what is asked for the
variables left out: the first variable here is a single random value. -/
theorem C103_joint_zero : ∃ name d,
    fieldCall [.cont (steadyVar 'z'), .cont (steadyVar 'w'), .cont (steadyVar 'x'), .cont (steadyVar 'y')]
      [([['x'], ['y']], .one (.count 0)), ([['w']], .one (.array [5, 6]))] = .ok (some (name, d)) ∧
    d.shape = [2] ∧ (∀ k ∈ ['x', 'y', 'z'], Dict.get? d.vals [k] = some (.scalar 1)) ∧
    Dict.get? d.vals ['w'] = some (.arr [2] [5, 6]) := by
  refine ⟨_, _, rfl, rfl, ?_, rfl⟩
  intro k hk
  fin_cases hk <;> rfl

/-- C93: the roots are asked for the values of the condition as they were drawn. -/
theorem C93_prior_asked (d : PD) (vs : Dict Str (List ℚ)) (hc : ∀ kv ∈ vs, ',' ∉ kv.1)
    (h : d.dist.lookup d.cond.keys = .ok (vs.map fun kv => (kv.1, .flat kv.2))) :
    d.jCondReq = .ok (vs.map fun kv => ([kv.1], .one (.array kv.2))) := by
  unfold PD.jCondReq
  rw [h]
  simp only [bind, Except.bind]
  clear h
  induction vs with
  | nil => rfl
  | cons kv vs ih =>
    have h1 : kv.1.splitOn ',' = [kv.1] := List.splitOn_eq_singleton (hc kv (by simp))
    simp only [List.map_cons, List.mapM_cons, h1]
    rw [ih fun kv' h' => hc kv' (by simp [h'])]
    rfl

/-- C77: a step of a variable goes by the transition matrix last set to it. -/
theorem C77_step (fmt : Val → Str) (name : Str) (isBool : Bool) (vset : List ℚ) (prob : Option RVProb) (ps : PSpec)
    (s₀ : RVState) (hn : newRV name isBool vset prob ps = .ok s₀) (l l' : List RVOp) (m : List (List ℝ))
    (ht : ∀ op ∈ l', ¬ Spec.SetsTran op) (hr : ∀ op ∈ l', ¬ Spec.ResetsProb op)
    (hd : (s₀.run l).defProb = false ∨ ∀ op ∈ l', ¬ Spec.SetsSet op) (s : RVState)
    (hs : s = s₀.run (l ++ .tran (.matrix m) :: l')) (hg : Spec.GoodName fmt s.toDRV) (hset : s.vset.Nodup)
    (hm : Spec.Square s.vset.length m) (x x' : ℚ) (hx : x ∈ s.vset) (hx' : x' ∈ s.vset)
    (r : ℕ) (perm : List ℕ) (r' : ℕ) (perm' : List ℕ) (u : ℝ) :
    ∃ d, s.toDRV.step fmt (.scalar x) (some (.scalar x')) false r perm r' perm' u = .ok d ∧ d.shape = [] ∧
      d.pscale = s.scale ∧
      Spec.entry m (Spec.rank s.vset x') (Spec.rank s.vset x) (d.prob.get []) := by
  have htran : s.tran = .matrix m := by
    rw [hs]
    exact C77_tran_kept_partial name isBool vset prob ps s₀ hn l l' _ ht hr hd
  have hscale : evalPscale s.scale.spec = .ok s.scale := by
    have := run_inv (l ++ .tran (.matrix m) :: l') s₀ (newRV_inv name isBool vset prob ps s₀ hn)
    rw [← hs] at this
    exact this.scale
  have hw : ∀ z ∈ s.vset, Spec.Within s.toDRV.vset (.scalar z) := by
    intro z hz i y hy
    rcases i with _ | ⟨i, is⟩ <;> simp [VArg.entry] at hy
    rw [← hy]; exact hz
  obtain ⟨d, h1, -, -, -, -, -, -, -, h9, h10, h11⟩ := C61_matrix (v := s.toDRV) hg hset false m (Or.inl htran)
    (by
      simp only [isSquare, List.all_eq_true, decide_eq_true_eq]
      intro row hrow
      rw [hm.1]
      exact hm.2 row hrow) hm.1.symm s.scale hscale (.scalar x) r perm (.scalar x) rfl
    (some (.scalar x')) (.scalar x') (.scalar x') (hw x' hx') (hw x hx) (by simp [VArg.sizes]) r' perm' u
  exact ⟨d, h1, h9, h10, h11 [] [] x' x rfl rfl⟩

/-- Non-vacuity: a matrix set before the set of values. -/
example : ∃ s d : _, newRV ['x'] false [0, 1] (some (.table [1 / 4, 3 / 4])) .none = .ok s ∧
    ((s.run [.tran (.matrix [[1 / 3, 0], [2 / 3, 1]]), .vset [5, 6]]).toDRV).step (fun _ => ['v']) (.scalar 5)
      (some (.scalar 6)) false 0 [] 0 [] 0 = .ok d ∧ d.prob.get [] = 2 / 3 := by
  have hn := newRV_table ['x'] [0, 1] (by simp) [1 / 4, 3 / 4] rfl
  obtain ⟨d, h1, -, -, h4⟩ := C77_step (fun _ => ['v']) _ _ _ _ _ _ hn [] [.vset [5, 6]] [[1 / 3, 0], [2 / 3, 1]]
    (by simp [Spec.SetsTran]) (by simp [Spec.ResetsProb]) (.inl rfl) _ rfl
    (by constructor <;> simp [RVState.toDRV, RVState.run, RVState.apply, RVState.setVset, RVState.setTran, disallowed])
    (by show [(5 : ℚ), 6].Nodup; decide)
    ⟨rfl, by simp [RVState.run, RVState.apply, RVState.setVset, RVState.setTran]⟩ 5 6
    (by show (5 : ℚ) ∈ [(5 : ℚ), 6]; simp) (by show (6 : ℚ) ∈ [(5 : ℚ), 6]; simp) 0 [] 0 [] 0
  refine ⟨_, d, hn, h1, ?_⟩
  have e1 : Spec.rank [(5 : ℚ), 6] 6 = 1 := by decide
  have e2 : Spec.rank [(5 : ℚ), 6] 5 = 0 := by decide
  obtain ⟨row, g1, g2⟩ := h4
  change [[(1 / 3 : ℝ), 0], [2 / 3, 1]][Spec.rank [(5 : ℚ), 6] 6]? = some row at g1
  change row[Spec.rank [(5 : ℚ), 6] 5]? = _ at g2
  rw [e1] at g1
  rw [e2] at g2
  simp only [List.getElem?_cons_succ, List.getElem?_cons_zero, Option.some.injEq] at g1
  subst g1
  simpa using g2.symm

/-- C79: with a function set as update a sample is accepted if it is the first or the function
gives something true in Python: not None, not zero, not the empty string, not False. -/
theorem C79_custom {F D Ω : Type} (E : RuleEnv F D Ω) (r : Rule F) (f : F) (hf : r.update = .fn f) (first : Bool)
    (x : OPQR D) (ω : Ω) (s t u : RuleVal) (hs : r.scores.evalScores E x = .ok s)
    (ht : r.thresh.evalThresh E ω = .ok t) (hu : E.update f s t = .ok u) :
    ∃ b, r.accepts E first x ω = .ok b ∧
      (b = true ↔ first = true ∨ (u ≠ .none ∧ u ≠ .num 0 ∧ u ≠ .str "" ∧ u ≠ .bool false)) := by
  unfold Rule.accepts
  simp only [hs, ht, hf, RulePart.evalUpdate, hu, bind, Except.bind, pure, Except.pure, RulePart.isUnset,
    Bool.false_or]
  refine ⟨_, rfl, ?_⟩
  rw [Bool.or_eq_true]
  refine or_congr Iff.rfl ?_
  cases u <;> simp [RuleVal.truthy]

end Probayes
