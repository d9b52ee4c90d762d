/-
Properties C60 (calling a random variable) and C61 (stepping it).
-/
import Verif.Model.RVCall
import Verif.Props.RV
import Verif.Props.PDSerial

namespace Probayes

/-- A variable whose name has none of the separators of distribution names and is
not reserved, with values printed without separators. -/
structure Spec.GoodName (fmt : Val → Str) (v : DRV) : Prop where
  ne : v.name ≠ []
  comma : ',' ∉ v.name
  bar : '|' ∉ v.name
  lparen : '(' ∉ v.name
  rparen : ')' ∉ v.name
  eq : '=' ∉ v.name
  allowed : v.name ∉ disallowed
  fmtComma : ∀ x, ',' ∉ fmt (.scalar x)
  fmtBar : ∀ x, '|' ∉ fmt (.scalar x)
  fmtLparen : ∀ x, '(' ∉ fmt (.scalar x)
  fmtRparen : ∀ x, ')' ∉ fmt (.scalar x)

variable {fmt : Val → Str} {v : DRV}

theorem Spec.GoodName.entry (h : Spec.GoodName fmt v) : Spec.Entry v.name v.name :=
  entry_plain h.ne h.comma h.bar h.lparen h.rparen h.eq

theorem Spec.GoodName.entryBrackets (h : Spec.GoodName fmt v) :
    Spec.Entry v.name (v.name ++ "=[]".toList) := by
  have := @entry_value v.name "[]".toList h.ne
  apply this <;> simp [h.comma, h.bar, h.lparen, h.rparen, h.eq]

theorem Spec.GoodName.entryValue (h : Spec.GoodName fmt v) (x : ℚ) :
    Spec.Entry v.name (eqText fmt v.name (.scalar x)) := by
  apply entry_value h.ne <;>
    simp [h.comma, h.bar, h.lparen, h.rparen, h.eq, h.fmtComma, h.fmtBar, h.fmtLparen, h.fmtRparen]

/-- The successor's key is as good a name as the variable's. -/
theorem Spec.GoodName.prime (h : Spec.GoodName fmt v) : Spec.GoodName fmt { v with name := v.prime } where
  ne := by simp [DRV.prime]
  comma := by simp [DRV.prime, h.comma]
  bar := by simp [DRV.prime, h.bar]
  lparen := by simp [DRV.prime, h.lparen]
  rparen := by simp [DRV.prime, h.rparen]
  eq := by simp [DRV.prime, h.eq]
  allowed := by
    intro hc
    have hlast : ∀ d ∈ disallowed, d.getLast? ≠ some '\'' := by decide
    exact hlast _ hc (by simp [DRV.prime])
  fmtComma := h.fmtComma
  fmtBar := h.fmtBar
  fmtLparen := h.fmtLparen
  fmtRparen := h.fmtRparen

theorem entry_distName (h : Spec.GoodName fmt v) (req : Req) :
    Spec.Entry v.name (distName fmt v.name req) := by
  cases req with
  | all => exact h.entry
  | count n => exact h.entryBrackets
  | scalar x => exact h.entryValue x
  | array xs => exact h.entryBrackets

theorem side_single {k t : Str} (h : Spec.Entry k t) : Spec.Side [(k, t)] :=
  ⟨by simp, by rintro kv hkv; simp only [List.mem_singleton] at hkv; subst hkv; exact h⟩

theorem side_nil : Spec.Side [] := ⟨by simp, by simp⟩

/-- Text of the variable after construction. -/
def finalText (fmt : Val → Str) (k t : Str) : VArg ℚ → Str
  | .scalar x => eqText fmt k (.scalar x)
  | .array _ => t

theorem entry_finalText (h : Spec.GoodName fmt v) {t : Str} (ht : Spec.Entry v.name t) (xs : VArg ℚ) :
    Spec.Entry v.name (finalText fmt v.name t xs) := by
  cases xs with
  | scalar x => exact h.entryValue x
  | array _ => exact ht

/-- The constructor for one variable. -/
theorem build_one (h : Spec.GoodName fmt v) {t : Str} (ht : Spec.Entry v.name t) (xs : VArg ℚ)
    (prob : Arr) (hp : prob.shape = xs.sizes) (ps : PSpec) (b : PScale) (hb : evalPscale ps = .ok b) :
    ∃ d, pdInit fmt t [(v.name, xs.toVal)] (some [(v.name, if xs.isscalar then none else some 0)])
        prob ps = .ok d ∧
      d.WF fmt ∧ d.marg = [(v.name, finalText fmt v.name t xs)] ∧ d.cond = [] ∧
      d.keylist = [v.name] ∧ d.values v.name = some xs.toVal ∧
      d.axis v.name = (if xs.isscalar then none else some 0) ∧
      d.shape = xs.sizes ∧ d.prob = prob ∧ d.pscale = b := by
  have hb' : BuildArgs fmt [(v.name, finalText fmt v.name t xs)] [] [(v.name, xs.toVal)]
      [(v.name, if xs.isscalar then none else some 0)] xs.sizes := by
    refine { ne := by simp, nodup := by simp, allowed := ?_, margSide := side_single (entry_finalText h ht xs),
             condSide := side_nil, disj := by simp, keys := by simp, dimNodup := by simp,
             dimKeys := by simp, single := ?_, array := ?_, cover := ?_ }
    · simpa using h.allowed
    · intro k w hk hs
      by_cases hkn : k = v.name
      · subst hkn
        cases xs with
        | scalar x => simp_all [Dict.get?, VArg.toVal, VArg.isscalar, finalText]
        | array ys => simp [Dict.get?, VArg.toVal] at hk; subst hk; simp [Val.issingleton] at hs
      · simp [Dict.get?, Ne.symm hkn] at hk
    · intro k w hk hs
      by_cases hkn : k = v.name
      · subst hkn
        cases xs with
        | scalar x => simp [Dict.get?, VArg.toVal] at hk; subst hk; simp [Val.issingleton] at hs
        | array ys =>
          simp [Dict.get?, VArg.toVal] at hk; subst hk
          exact ⟨[ys.length], ys, 0, rfl, by simp, by simp [Dict.get?, VArg.isscalar],
            by simp [VArg.sizes]⟩
      · simp [Dict.get?, Ne.symm hkn] at hk
    · intro a ha
      cases xs with
      | scalar x => simp [VArg.sizes] at ha
      | array ys =>
        refine ⟨v.name, ?_⟩
        simp [VArg.sizes] at ha
        subst ha
        simp [Dict.get?, VArg.isscalar]
  obtain ⟨d, h1, h2, h3, h4, h5, h6, h7, h8, h9⟩ := pdInit_ok hb' prob hp ps b hb
  refine ⟨d, ?_, h2, h3, h4, ?_, ?_, ?_, h7, h8, h9⟩
  · rw [← h1, ← pdInit_named hb' (side_single ht) side_nil rfl rfl ?_ prob ps]
    · simp [margcondStr, Dict.vals, List.intercalate]
    · intro k w hk hs
      refine ⟨?_, rfl⟩
      cases xs with
      | scalar x =>
        by_cases hkn : k = v.name
        · subst hkn; simp [Dict.get?, VArg.toVal] at hk; subst hk; simp [Val.issingleton] at hs
        · simp [Dict.get?, Ne.symm hkn] at hk
      | array ys => rfl
  · show Dict.keys d.vals = _
    rw [h5, Dict.keys_map]; simp
  · rw [hb'.values h5]
    cases xs <;> simp [Dict.get?, VArg.toVal, Val.flat]
  · rw [h6]
    cases xs <;> simp [Dict.get?, VArg.isscalar]

/-- How a variable appears in the name of a distribution: with its value if that
is a single one, with brackets if an array was asked for, else by its name alone. -/
def Spec.shown (fmt : Val → Str) (k : Str) (asked : Bool) : VArg ℚ → Str
  | .scalar x => k ++ '=' :: fmt (.scalar x)
  | .array _ => if asked then k ++ ['=', '[', ']'] else k

/-- Something was asked for. -/
def Spec.specified : Req → Bool
  | .all => false
  | _ => true

theorem shown_distName {req : Req} {r : ℕ} {perm : List ℕ} {xs : VArg ℚ}
    (hx : v.evaluate req r perm = .ok xs) (k : Str) :
    finalText fmt k (distName fmt k req) xs = Spec.shown fmt k (Spec.specified req) xs := by
  cases xs with
  | scalar x => rfl
  | array xs =>
    cases req with
    | scalar x => simp [DRV.evaluate] at hx
    | _ => rfl

/-! ### C60 -/

/-- The number a scale uses for "impossible". -/
noncomputable def Spec.nought (b : PScale) : ℝ := if b.iscomplex then -npi else 0

theorem getD_map_entry {α : Type} (xs : List α) (f : α → ℝ) (i : ℕ) (x : α) (h : xs[i]? = some x) :
    (xs.map f).getD i 0 = f x := by
  simp [List.getD, List.getElem?_map, h]

/-- C60: calling a variable that has a scalar probability, with any request it can
evaluate, gives the distribution of exactly the evaluated values: one variable, no
conditions, an axis exactly for an array, the variable's scale, and for every value
the variable's probability if the value belongs to its set and the scale's zero if
not. -/
theorem C60_call (h : Spec.GoodName fmt v) (p : ℝ) (hprob : v.prob = .scalar p) (b : PScale)
    (hb : evalPscale v.pscale = .ok b) (req : Req) (r : ℕ) (perm : List ℕ) (xs : VArg ℚ)
    (hx : v.evaluate req r perm = .ok xs) :
    ∃ d, v.call fmt req r perm = .ok d ∧ d.WF fmt ∧ d.keylist = [v.name] ∧
      d.marg = [(v.name, Spec.shown fmt v.name (Spec.specified req) xs)] ∧ d.cond = [] ∧ d.values v.name = some xs.toVal ∧
      d.axis v.name = (if xs.isscalar then none else some 0) ∧ d.shape = xs.sizes ∧ d.pscale = b ∧
      ∀ i x, xs.entry i = some x → d.prob.get i = if x ∈ v.vset then p else Spec.nought b := by
  have hpr : ∃ a : Arr, v.evalProb xs = .ok a ∧ a.shape = xs.sizes ∧
      ∀ i x, xs.entry i = some x → a.get i = if x ∈ v.vset then p else Spec.nought b := by
    cases xs with
    | scalar y =>
      refine ⟨⟨[], fun _ => uniformProb (insideD v.vset) p b.iscomplex y⟩, ?_, rfl, ?_⟩
      · simp [DRV.evalProb, hprob, rvEvalProb, hb, bind, Except.bind, pure, Except.pure]
      · intro i x hi
        rcases i with _ | ⟨i, is⟩
        · simp [VArg.entry] at hi
          subst hi
          simp [uniformProb, insideD, pZero, Spec.nought, nni]
        · simp [VArg.entry] at hi
    | array ys =>
      refine ⟨listArr (uniformProbArr (insideD v.vset) p b.iscomplex ys), ?_, ?_, ?_⟩
      · simp [DRV.evalProb, hprob, rvEvalProbArr, hb, bind, Except.bind, pure, Except.pure]
      · simp [listArr, VArg.sizes, uniformProbArr]
      · intro i x hi
        rcases i with _ | ⟨i, _ | ⟨j, is⟩⟩
        · simp [VArg.entry] at hi
        · simp only [VArg.entry] at hi
          simp only [listArr, List.headD_cons, uniformProbArr]
          rw [getD_map_entry _ _ _ _ hi]
          simp [insideD, pZero, Spec.nought, nni]
        · simp [VArg.entry] at hi
  obtain ⟨a, h1, h2, h3⟩ := hpr
  obtain ⟨d, d1, d2, d3, d4, d5, d6, d7, d8, d9, d10⟩ :=
    build_one h (entry_distName h req) xs a h2 v.pscale b hb
  refine ⟨d, ?_, d2, d5, by rw [d3, shown_distName hx], d4, d6, d7, d8, d10, by rw [d9]; exact h3⟩
  simp only [DRV.call, hx, h1, bind, Except.bind]
  exact d1

/-- C60: the same for a callable probability: the numbers are those it returns. -/
theorem C60_call_function (h : Spec.GoodName fmt v) (f : VArg ℚ → Py Arr) (hprob : v.prob = .fn f)
    (b : PScale) (hb : evalPscale v.pscale = .ok b) (req : Req) (r : ℕ) (perm : List ℕ) (xs : VArg ℚ)
    (hx : v.evaluate req r perm = .ok xs) (a : Arr) (ha : f xs = .ok a) (hs : a.shape = xs.sizes) :
    ∃ d, v.call fmt req r perm = .ok d ∧ d.WF fmt ∧ d.keylist = [v.name] ∧
      d.marg = [(v.name, Spec.shown fmt v.name (Spec.specified req) xs)] ∧ d.cond = [] ∧ d.values v.name = some xs.toVal ∧
      d.shape = xs.sizes ∧ d.pscale = b ∧ d.prob = a := by
  obtain ⟨d, d1, d2, d3, d4, d5, d6, d7, d8, d9, d10⟩ :=
    build_one h (entry_distName h req) xs a hs v.pscale b hb
  refine ⟨d, ?_, d2, d5, by rw [d3, shown_distName hx], d4, d6, d8, d10, d9⟩
  simp only [DRV.call, hx, DRV.evalProb, hprob, ha, bind, Except.bind]
  exact d1

/-- What a variable evaluates to: the whole set, the first members in cyclic
order, a member, a scalar or array as given. -/
theorem C60_values (v : DRV) (hne : v.vset ≠ []) (r : ℕ) (hr : r < v.vset.length) (perm : List ℕ) :
    v.evaluate .all r perm = .ok (.array v.vset) ∧
    (∀ x, v.evaluate (.scalar x) r perm = .ok (.scalar x)) ∧
    (∀ xs, v.evaluate (.array xs) r perm = .ok (.array xs)) ∧
    (v.evaluate (.count 0) r perm = .ok (.scalar v.vset[r])) ∧
    (∀ n : ℕ, 0 < n → ∃ xs, v.evaluate (.count n) r perm = .ok (.array xs) ∧ xs.length = n ∧
      ∀ i < n, xs[i]? = v.vset[i % v.vset.length]?) := by
  refine ⟨rfl, fun _ => rfl, fun _ => rfl, ?_, ?_⟩
  · simp [DRV.evaluate, evaluateD, hr]
  · intro n hn
    have hlen : 0 < v.vset.length := List.length_pos_of_ne_nil hne
    have htake : ∀ is : List ℕ, (∀ i ∈ is, i < v.vset.length) →
        ∃ xs, takeIdx v.vset is = .ok xs ∧ xs.map some = is.map (v.vset[·]?) := by
      intro is
      induction is with
      | nil => intro _; exact ⟨[], rfl, rfl⟩
      | cons i is ih =>
        intro hi
        obtain ⟨xs, h1, h2⟩ := ih (fun j hj => hi j (by simp [hj]))
        have : i < v.vset.length := hi i (by simp)
        refine ⟨v.vset[i] :: xs, ?_, ?_⟩
        · simp [takeIdx, List.getElem?_eq_getElem this, h1, bind, Except.bind, pure, Except.pure]
        · simp [h2, List.getElem?_eq_getElem this]
    obtain ⟨xs, h1, h2⟩ := htake ((List.range n).map (· % v.vset.length)) (by
      intro i hi
      obtain ⟨j, _, rfl⟩ := List.mem_map.mp hi
      exact Nat.mod_lt _ hlen)
    have h3 : xs.length = n := by have := congrArg List.length h2; simpa using this
    refine ⟨xs, ?_, h3, ?_⟩
    · have h0 : ¬ (n : ℤ) = 0 := by omega
      have h4 : (0 : ℤ) < n := by omega
      simp only [DRV.evaluate, evaluateD, h0, if_false, h4, if_true, Int.natAbs_natCast, lengthD,
        Bool.false_eq_true, h1, bind, Except.bind, pure, Except.pure]
    · intro i hi
      have := congrArg (·[i]?) h2
      simp only [List.getElem?_map] at this
      rw [List.getElem?_range hi] at this
      rw [List.getElem?_eq_getElem (by omega)] at this ⊢
      simpa using this

/-- C60: a variable with default probability, called without values, gives
probabilities summing to one, on every scale that can hold them. -/
theorem C60_default_sums (h : Spec.GoodName fmt v) (hne : v.vset ≠ []) (p : ℝ)
    (hprob : v.prob = .scalar p) (b : PScale) (hb : evalPscale v.pscale = .ok b) (hv : Spec.Valid b)
    (hc : Spec.Unclamped (-Real.log v.vset.length) (.log 0 0) b)
    (hdef : defaultProb v.vset.length v.pscale = .ok p) (r : ℕ) (perm : List ℕ) :
    ∃ d, v.call fmt .all r perm = .ok d ∧ d.shape = [v.vset.length] ∧
      ((List.range v.vset.length).map fun i => d.at [i]).sum = 1 ∧
      ∀ i < v.vset.length, d.at [i] = 1 / v.vset.length := by
  obtain ⟨d, h1, _, _, _, _, _, _, h2, h3, h4⟩ := C60_call h p hprob b hb .all r perm _ rfl
  obtain ⟨q, hq, hin, _⟩ := C30_uniform v.vset hne v.pscale b hb hv hc
  rw [hdef] at hq
  obtain rfl := Except.ok.inj hq
  have hat : ∀ i < v.vset.length, d.at [i] = 1 / v.vset.length := by
    intro i hi
    have hm := List.getElem_mem hi
    obtain ⟨q', hq', hval⟩ := hin _ hm
    have := h4 [i] v.vset[i] (by simp [VArg.entry, hi])
    rw [if_pos hm] at this
    simp only [rvEvalProb, hb, uniformProb, insideD, hm, decide_true, bind, Except.bind, pure,
      Except.pure, if_true] at hq'
    obtain rfl := Except.ok.inj hq'
    rw [PD.at, this, h3, hval]
  refine ⟨d, h1, by rw [h2]; rfl, ?_, hat⟩
  rw [List.map_congr_left (g := fun _ => 1 / (v.vset.length : ℝ))
    (fun i hi => hat i (List.mem_range.mp hi))]
  have hpos : (v.vset.length : ℝ) ≠ 0 := by simpa using hne
  simp [mul_inv_cancel₀ hpos]

/-- C60: a variable given an array of probabilities, one for each member of its
set, can never be called. -/
theorem C60_table_raises (fmt : Val → Str) (v : DRV) (ps : List ℝ) (hprob : v.prob = .table ps)
    (req : Req) (r : ℕ) (perm : List ℕ) : Raises (v.call fmt req r perm) := by
  unfold DRV.call
  rcases v.evaluate req r perm with e | xs
  · exact ⟨_, rfl⟩
  · exact ⟨.assertion, by simp [bind, Except.bind, DRV.evalProb, hprob]⟩

/-- C60, as one would expect it for arrays: calling the variable without values
gives the array. -/
def C60_table_claim : Prop :=
  ∀ (fmt : Val → Str) (v : DRV) (ps : List ℝ) (r : ℕ) (perm : List ℕ), Spec.GoodName fmt v →
    v.prob = .table ps → ps.length = v.vset.length →
    ∃ d, v.call fmt .all r perm = .ok d ∧ ∀ i < ps.length, some (d.prob.get [i]) = ps[i]?

/-- A two-valued variable given its probabilities as an array. -/
noncomputable def coinTable : DRV := ⟨['x'], [0, 1], .none, .table [1 / 4, 3 / 4], .none, none⟩

theorem coinTable_named (f : Val → Str) (hf : f = fun _ => []) : Spec.GoodName f coinTable := by
  subst hf
  exact ⟨by decide, by decide, by decide, by decide, by decide, by decide, by decide,
    by simp, by simp, by simp, by simp⟩

theorem C60_table_claim_fails : ¬ C60_table_claim := by
  intro h
  obtain ⟨d, hd, _⟩ := h (fun _ => []) coinTable [1 / 4, 3 / 4] 0 [] (coinTable_named _ rfl) rfl rfl
  obtain ⟨e, he⟩ := C60_table_raises (fun _ => []) coinTable _ rfl .all 0 []
  rw [he] at hd
  simp at hd

/-- C60 is not vacuous: a three-valued variable with default probability called at
a member, a non-member, an array and without values. -/
noncomputable def die : DRV := ⟨['x'], [1, 2, 3], .none, .scalar (1 / 3), .none, none⟩

theorem die_named (f : Val → Str) (hf : f = fun _ => ['v']) : Spec.GoodName f die := by
  subst hf
  exact ⟨by decide, by decide, by decide, by decide, by decide, by decide, by decide,
    by simp, by simp, by simp, by simp⟩

example : ∃ d, die.call (fun _ => ['v']) (.array [2, 5]) 0 [] = .ok d ∧ d.shape = [2] ∧
    d.prob.get [0] = 1 / 3 ∧ d.prob.get [1] = 0 := by
  obtain ⟨d, h1, _, _, _, _, _, _, h2, _, h4⟩ := C60_call (die_named _ rfl) (1 / 3) rfl (.lin 1)
    (by simp [die, evalPscale]) (.array [2, 5]) 0 [] _ rfl
  refine ⟨d, h1, h2, ?_, ?_⟩
  · rw [h4 [0] 2 rfl]; simp [die]
  · rw [h4 [1] 5 rfl]; simp [die, Spec.nought, PScale.iscomplex]

/-! ### C61 -/

theorem prime_ne (v : DRV) : v.prime ≠ v.name := by
  intro h
  have := congrArg List.length h
  simp [DRV.prime] at this

/-- The constructor for a successor given a predecessor. -/
theorem build_two (h : Spec.GoodName fmt v) {t t' : Str} (ht : Spec.Entry v.name t)
    (ht' : Spec.Entry v.prime t') (s q : VArg ℚ) (hpos : ∀ n ∈ s.sizes ++ q.sizes, 0 < n)
    (prob : Arr) (hp : prob.shape = s.sizes ++ q.sizes) (ps : PSpec) (b : PScale)
    (hb : evalPscale ps = .ok b) :
    ∃ d, pdInit fmt (t' ++ '|' :: t) (v.stepVals q s).1 (some (v.stepVals q s).2) prob ps = .ok d ∧
      d.WF fmt ∧ d.marg = [(v.prime, finalText fmt v.prime t' s)] ∧
      d.cond = [(v.name, finalText fmt v.name t q)] ∧ d.keylist = [v.prime, v.name] ∧
      d.values v.prime = some s.toVal ∧ d.values v.name = some q.toVal ∧
      d.axis v.prime = (if s.isscalar then none else some 0) ∧
      d.axis v.name = (if q.isscalar then none else some s.sizes.length) ∧
      d.shape = s.sizes ++ q.sizes ∧ d.prob = prob ∧ d.pscale = b := by
  have hne := prime_ne v
  have hne' : v.name ≠ v.prime := fun h => hne h.symm
  have hb' : BuildArgs fmt [(v.prime, finalText fmt v.prime t' s)] [(v.name, finalText fmt v.name t q)]
      (v.stepVals q s).1 (v.stepVals q s).2 (s.sizes ++ q.sizes) := by
    have hcond : Spec.Side [(v.name, finalText fmt v.name t q)] := side_single (entry_finalText h ht q)
    have hmarg : Spec.Side [(v.prime, finalText fmt v.prime t' s)] :=
      side_single (entry_finalText (v := { v with name := v.prime }) h.prime ht' s)
    have hal : v.prime ∉ disallowed := h.prime.allowed
    have hal' := h.allowed
    refine { ne := ?_, nodup := ?_, allowed := ?_, margSide := hmarg, condSide := hcond, disj := ?_,
             keys := ?_, dimNodup := ?_, dimKeys := ?_, single := ?_, array := ?_, cover := ?_ }
    · cases s <;> cases q <;> simp [DRV.stepVals]
    · cases s <;> cases q <;> simp [DRV.stepVals, hne]
    · cases s <;> cases q <;> simp [DRV.stepVals, hal, hal']
    · simp [hne]
    · cases s <;> cases q <;> simp [DRV.stepVals]
    · cases s <;> cases q <;> simp [DRV.stepVals, hne]
    · cases s <;> cases q <;> simp [DRV.stepVals]
    · intro k w hk hs
      by_cases hkp : k = v.prime
      · subst hkp
        cases s <;> cases q <;> simp [DRV.stepVals, Dict.get?] at hk <;> subst hk <;>
          simp [Val.issingleton] at hs <;> simp [DRV.stepVals, Dict.get?, finalText]
      · by_cases hkn : k = v.name
        · subst hkn
          cases s <;> cases q <;> simp [DRV.stepVals, Dict.get?, hne] at hk <;> subst hk <;>
            simp [Val.issingleton] at hs <;> simp [DRV.stepVals, Dict.get?, finalText, hne]
        · cases s <;> cases q <;> simp [DRV.stepVals, Dict.get?, Ne.symm hkp, Ne.symm hkn] at hk
    · intro k w hk hs
      by_cases hkp : k = v.prime
      · subst hkp
        cases s <;> cases q <;> simp [DRV.stepVals, Dict.get?] at hk <;> subst hk <;>
          simp [Val.issingleton] at hs
        · rename_i ss _
          exact ⟨_, ss, 0, rfl, by simp, by simp [DRV.stepVals, Dict.get?], by simp [VArg.sizes]⟩
        · rename_i ss qs
          have : 0 < ss.length := hpos _ (by simp [VArg.sizes])
          exact ⟨_, ss, 0, rfl, by simp; omega, by simp [DRV.stepVals, Dict.get?], by simp [VArg.sizes]⟩
      · by_cases hkn : k = v.name
        · subst hkn
          cases s <;> cases q <;> simp [DRV.stepVals, Dict.get?, hne] at hk <;> subst hk <;>
            simp [Val.issingleton] at hs
          · rename_i _ qs
            exact ⟨_, qs, 0, rfl, by simp, by simp [DRV.stepVals, Dict.get?, hne], by simp [VArg.sizes]⟩
          · rename_i ss qs
            have : 0 < qs.length := hpos _ (by simp [VArg.sizes])
            exact ⟨_, qs, 1, rfl, by simp; omega, by simp [DRV.stepVals, Dict.get?, hne],
              by simp [VArg.sizes]⟩
        · cases s <;> cases q <;> simp [DRV.stepVals, Dict.get?, Ne.symm hkp, Ne.symm hkn] at hk
    · intro a ha
      cases s <;> cases q <;> simp [VArg.sizes] at ha
      · subst ha; exact ⟨v.name, by simp [DRV.stepVals, Dict.get?, hne]⟩
      · subst ha; exact ⟨v.prime, by simp [DRV.stepVals, Dict.get?]⟩
      · have : a = 0 ∨ a = 1 := by omega
        rcases this with rfl | rfl
        · exact ⟨v.prime, by simp [DRV.stepVals, Dict.get?]⟩
        · exact ⟨v.name, by simp [DRV.stepVals, Dict.get?, hne]⟩
  obtain ⟨d, h1, h2, h3, h4, h5, h6, h7, h8, h9⟩ := pdInit_ok hb' prob hp ps b hb
  refine ⟨d, ?_, h2, h3, h4, ?_, ?_, ?_, ?_, ?_, h7, h8, h9⟩
  · rw [← h1, ← pdInit_named hb' (side_single ht') (side_single ht) rfl rfl ?_ prob ps]
    · have : t ≠ [] := ht.nonempty
      simp [margcondStr, Dict.vals, List.intercalate, this]
    · intro k w hk hs
      by_cases hkp : k = v.prime
      · subst hkp
        cases s <;> cases q <;> simp [DRV.stepVals, Dict.get?] at hk <;> subst hk <;>
          simp [Val.issingleton] at hs <;> simp [Dict.get?, finalText, hne']
      · by_cases hkn : k = v.name
        · subst hkn
          cases s <;> cases q <;> simp [DRV.stepVals, Dict.get?, hne] at hk <;> subst hk <;>
            simp [Val.issingleton] at hs <;> simp [Dict.get?, finalText, hne]
        · simp [Dict.get?, Ne.symm hkp, Ne.symm hkn]
  · show Dict.keys d.vals = _
    rw [h5, Dict.keys_map]
    cases s <;> cases q <;> simp [DRV.stepVals]
  · rw [hb'.values h5]
    cases s <;> cases q <;> simp [DRV.stepVals, Dict.get?, VArg.toVal, Val.flat]
  · rw [hb'.values h5]
    cases s <;> cases q <;> simp [DRV.stepVals, Dict.get?, VArg.toVal, Val.flat, hne]
  · rw [h6]
    cases s <;> cases q <;> simp [DRV.stepVals, Dict.get?, VArg.isscalar]
  · rw [h6]
    cases s <;> cases q <;> simp [DRV.stepVals, Dict.get?, VArg.isscalar, VArg.sizes, hne]

/-- The position of a value among the members of a set in increasing order. -/
def Spec.rank (vset : List ℚ) (x : ℚ) : ℕ := vset.countP (· < x)

/-- Every value belongs to the set. -/
def Spec.Within (vset : List ℚ) (xs : VArg ℚ) : Prop := ∀ i x, xs.entry i = some x → x ∈ vset

theorem sorted_lt {vset : List ℚ} (hset : vset.Nodup) :
    (vset.mergeSort (· ≤ ·)).Pairwise (· < ·) := by
  have h1 : (vset.mergeSort (· ≤ ·)).Pairwise (fun a b => decide (a ≤ b) = true) :=
    List.pairwise_mergeSort (fun a b c hab hbc => by simp at *; exact le_trans hab hbc)
      (fun a b => by simp; exact le_total a b) _
  have h2 : (vset.mergeSort (· ≤ ·)).Nodup := (List.mergeSort_perm _ _).nodup_iff.mpr hset
  have := h1.and h2
  exact this.imp fun {a b} hab => lt_of_le_of_ne (by simpa using hab.1) hab.2

theorem countP_rank : ∀ (l : List ℚ), l.Pairwise (· < ·) → ∀ a x, l[a]? = some x →
    l.countP (· < x) = a
  | [], _, _, _, h => by simp at h
  | y :: l, hl, 0, x, h => by
      simp only [List.getElem?_cons_zero, Option.some.injEq] at h
      subst h
      rw [List.countP_eq_zero]
      intro z hz
      simp only [decide_eq_true_eq, not_lt]
      rcases List.mem_cons.mp hz with rfl | hz
      · exact le_refl _
      · exact le_of_lt ((List.pairwise_cons.mp hl).1 z hz)
  | y :: l, hl, a + 1, x, h => by
      simp only [List.getElem?_cons_succ] at h
      have hyx := (List.pairwise_cons.mp hl).1 x (List.mem_of_getElem? h)
      rw [List.countP_cons_of_pos (by simpa using hyx),
        countP_rank l (List.pairwise_cons.mp hl).2 a x h]

theorem sorted_rank {vset : List ℚ} (hset : vset.Nodup) {x : ℚ} (hx : x ∈ vset) :
    (vset.mergeSort (· ≤ ·))[Spec.rank vset x]? = some x := by
  have hm : x ∈ vset.mergeSort (· ≤ ·) := (List.mergeSort_perm _ _).mem_iff.mpr hx
  obtain ⟨a, ha⟩ := List.mem_iff_getElem?.mp hm
  have := countP_rank _ (sorted_lt hset) a x ha
  rw [Spec.rank, ← (List.mergeSort_perm vset (· ≤ ·)).countP_eq, this, ha]

theorem rank_lt {vset : List ℚ} (hset : vset.Nodup) {x : ℚ} (hx : x ∈ vset) :
    Spec.rank vset x < (vset.mergeSort (· ≤ ·)).length := by
  by_contra hc
  have := sorted_rank hset hx
  rw [List.getElem?_eq_none (by omega)] at this
  simp at this

theorem sorted_rank_get {vset : List ℚ} (hset : vset.Nodup) {x : ℚ} (hx : x ∈ vset) :
    (vset.mergeSort (· ≤ ·))[Spec.rank vset x]'(rank_lt hset hx) = x := by
  have := sorted_rank hset hx
  rw [List.getElem?_eq_getElem (rank_lt hset hx)] at this
  simpa using this

theorem forall₂_entry {m : List (List ℝ)} {is : List ℕ} {xs : List ℝ} {P : ℕ → ℝ → Prop}
    (h : List.Forall₂ P is xs) : xs.length = is.length ∧
    ∀ (i : ℕ) (a : ℕ), is[i]? = some a → ∃ x, xs[i]? = some x ∧ P a x := by
  refine ⟨h.length_eq.symm, ?_⟩
  intro i a hi
  induction h generalizing i with
  | nil => simp at hi
  | cons hab _ ih =>
    cases i with
    | zero => simp at hi; subst hi; exact ⟨_, rfl, hab⟩
    | succ i => simpa using ih i (by simpa using hi)

/-- The matrix lookup for values given as scalars or arrays. -/
theorem lookup_values {vset : List ℚ} (hset : vset.Nodup) (m : List (List ℝ))
    (hsq : isSquare m = true) (hlen : vset.length = m.length) (s q : VArg ℚ)
    (hs : Spec.Within vset s) (hq : Spec.Within vset q) :
    ∃ out, lookupSquareMatrix q s m vset = .ok out ∧
      (out.toArr (s.sizes.headD 0) (q.sizes.headD 0)).shape = s.sizes ++ q.sizes ∧
      ∀ i j x y, s.entry i = some x → q.entry j = some y →
        Spec.entry m (Spec.rank vset x) (Spec.rank vset y)
          ((out.toArr (s.sizes.headD 0) (q.sizes.headD 0)).get (i ++ j)) := by
  have hidx : ∀ xs : List ℚ, (∀ x ∈ xs, x ∈ vset) →
      (∀ i ∈ xs.map (Spec.rank vset), i < (vset.mergeSort (· ≤ ·)).length) ∧
      xs.map some = (xs.map (Spec.rank vset)).map ((vset.mergeSort (· ≤ ·))[·]?) := by
    intro xs hxs
    constructor
    · intro i hi
      obtain ⟨x, hx, rfl⟩ := List.mem_map.mp hi
      exact rank_lt hset (hxs x hx)
    · rw [List.map_map]
      apply List.map_congr_left
      intro x hx
      exact (sorted_rank hset (hxs x hx)).symm
  have harr : ∀ xs : List ℚ, Spec.Within vset (.array xs) → ∀ x ∈ xs, x ∈ vset := by
    intro xs h x hx
    obtain ⟨i, hi⟩ := List.mem_iff_getElem?.mp hx
    exact h [i] x hi
  have hidxi : ∀ (xs : List ℚ) (i : ℕ) (x : ℚ), xs[i]? = some x →
      (xs.map (Spec.rank vset))[i]? = some (Spec.rank vset x) := by
    intro xs i x h; simp [List.getElem?_map, h]
  cases s with
  | scalar x =>
    have hx : x ∈ vset := hs [] x rfl
    cases q with
    | scalar y =>
      have hy : y ∈ vset := hq [] y rfl
      obtain ⟨z, h1, h2⟩ := C33_scalar vset hset m hsq hlen _ _ (rank_lt hset hx) (rank_lt hset hy)
      rw [sorted_rank_get hset hx, sorted_rank_get hset hy] at h1
      refine ⟨_, h1, rfl, ?_⟩
      intro i j x' y' hi hj
      rcases i with _ | ⟨i, is⟩ <;> simp [VArg.entry] at hi
      rcases j with _ | ⟨j, js⟩ <;> simp [VArg.entry] at hj
      subst hi hj
      exact h2
    | array ys =>
      have hy := harr ys hq
      obtain ⟨h1, h2⟩ := hidx ys hy
      obtain ⟨xs, h3, h4⟩ := (C33_mixed vset hset m hsq hlen _ _ h1 (rank_lt hset hx) ys h2).2
      rw [sorted_rank_get hset hx] at h3
      obtain ⟨h5, h6⟩ := forall₂_entry (m := m) h4
      refine ⟨_, h3, by simp [LookupOut.toArr, listArr, VArg.sizes, h5], ?_⟩
      intro i j x' y' hi hj
      rcases i with _ | ⟨i, is⟩ <;> simp [VArg.entry] at hi
      rcases j with _ | ⟨j, _ | ⟨k, js⟩⟩ <;> simp only [VArg.entry] at hj
      all_goals try simp at hj
      subst hi
      obtain ⟨z, h7, h8⟩ := h6 j _ (hidxi ys j y' (by simpa using hj))
      simpa [LookupOut.toArr, listArr, List.getD, h7] using h8
  | array xs =>
    have hx := harr xs hs
    obtain ⟨g1, g2⟩ := hidx xs hx
    cases q with
    | scalar y =>
      have hy : y ∈ vset := hq [] y rfl
      obtain ⟨zs, h3, h4⟩ := (C33_mixed vset hset m hsq hlen _ _ g1 (rank_lt hset hy) xs g2).1
      rw [sorted_rank_get hset hy] at h3
      obtain ⟨h5, h6⟩ := forall₂_entry (m := m) h4
      refine ⟨_, h3, by simp [LookupOut.toArr, listArr, VArg.sizes, h5], ?_⟩
      intro i j x' y' hi hj
      rcases j with _ | ⟨j, js⟩ <;> simp [VArg.entry] at hj
      rcases i with _ | ⟨i, _ | ⟨k, is⟩⟩ <;> simp only [VArg.entry] at hi
      all_goals try simp at hi
      subst hj
      obtain ⟨z, h7, h8⟩ := h6 i _ (hidxi xs i x' (by simpa using hi))
      simpa [LookupOut.toArr, listArr, List.getD, h7] using h8
    | array ys =>
      have hy := harr ys hq
      obtain ⟨h1, h2⟩ := hidx ys hy
      obtain ⟨zss, h3, h4⟩ := C33_arrays vset hset m hsq hlen _ _ g1 h1 xs ys g2 h2
      refine ⟨_, h3, rfl, ?_⟩
      intro i j x' y' hi hj
      rcases i with _ | ⟨i, _ | ⟨k, is⟩⟩ <;> simp only [VArg.entry] at hi
      all_goals try simp at hi
      rcases j with _ | ⟨j, _ | ⟨k, js⟩⟩ <;> simp only [VArg.entry] at hj
      all_goals try simp at hj
      have hrow : ∀ (l : List ℕ) (z : List (List ℝ)),
          List.Forall₂ (fun i xs => List.Forall₂ (Spec.entry m i) (ys.map (Spec.rank vset)) xs) l z →
          ∀ (i a : ℕ), l[i]? = some a → ∃ r, z[i]? = some r ∧
            List.Forall₂ (Spec.entry m a) (ys.map (Spec.rank vset)) r := by
        intro l z hz
        induction hz with
        | nil => intro i a h; simp at h
        | cons hab _ ih =>
          intro i a h
          cases i with
          | zero => simp at h; subst h; exact ⟨_, rfl, hab⟩
          | succ i => simpa using ih i a (by simpa using h)
      obtain ⟨row, h5, h6⟩ := hrow _ _ h4 i _ (hidxi xs i x' (by simpa using hi))
      obtain ⟨z, h7, h8⟩ := (forall₂_entry (m := m) h6).2 j _ (hidxi ys j y' (by simpa using hj))
      simpa [LookupOut.toArr, List.getD, h5, h7] using h8

/-- The transition matrix in use: the only one, or the forward one, or when going
in reverse the second of a pair. -/
def Spec.Uses (v : DRV) (reverse : Bool) (m : List (List ℝ)) : Prop :=
  v.tran = .matrix m ∨ (∃ n, v.tran = .pair m n ∧ reverse = false) ∨
    ∃ n, v.tran = .pair n m ∧ reverse = true

theorem Spec.Uses.mat {reverse : Bool} {m : List (List ℝ)} (h : Spec.Uses v reverse m) :
    v.tran.mat reverse = some m := by
  rcases h with h | ⟨n, h, rfl⟩ | ⟨n, h, rfl⟩ <;> simp [h, RVTran.mat]

/-- The successor values meant by the arguments of `step` when nothing is sampled:
those given, else the predecessor moved by the delta, else (for an array) the
predecessor values themselves. -/
inductive Spec.Asked (v : DRV) (q : VArg ℚ) : Option SReq → VArg ℚ → Prop
  | scalar (x : ℚ) : Spec.Asked v q (some (.scalar x)) (.scalar x)
  | array (xs : List ℚ) : Spec.Asked v q (some (.array xs)) (.array xs)
  | moved (f : ℚ → ℚ) (hd : v.delta = some f) : Spec.Asked v q none (q.map f)
  | same (xs : List ℚ) (hd : v.delta = none) (hq : q = .array xs) : Spec.Asked v q none (.array xs)

theorem asked_succ {q s : VArg ℚ} {succ : Option SReq} (ha : Spec.Asked v q succ s)
    (ht : v.tran ≠ .none) (reverse : Bool) (r : ℕ) (perm : List ℕ) (u : ℝ) :
    ∃ req, v.defaultSucc q succ = .ok req ∧ v.succVals q req reverse r perm u = .ok (s, none) := by
  have hsv : ∀ s' : VArg ℚ, v.succVals q (match s' with | .scalar x => .scalar x | .array xs => .array xs)
      reverse r perm u = .ok (s', none) := by
    intro s'
    cases s' <;> simp only [DRV.succVals] <;> cases hm : v.tran.mat reverse <;> simp only
  cases ha with
  | scalar x => exact ⟨_, rfl, hsv (.scalar x)⟩
  | array xs => exact ⟨_, rfl, hsv (.array xs)⟩
  | moved f hd =>
    cases q with
    | scalar x =>
      refine ⟨.scalar (f x), ?_, hsv (.scalar (f x))⟩
      cases hT : v.tran <;> simp_all [DRV.defaultSucc]
    | array xs =>
      refine ⟨.array (xs.map f), ?_, hsv (.array (xs.map f))⟩
      cases hT : v.tran <;> simp_all [DRV.defaultSucc]
  | same xs hd hq =>
    subst hq
    refine ⟨.array xs, ?_, hsv (.array xs)⟩
    cases hT : v.tran <;> simp_all [DRV.defaultSucc]

theorem entry_succName (h : Spec.GoodName fmt v) (pred : Req) (succ : Option SReq) (s : VArg ℚ) :
    Spec.Entry v.prime (v.succName fmt pred succ s) := by
  have hv : ∀ s : VArg ℚ, Spec.Entry v.prime (match s with
      | .scalar x => eqText fmt v.prime (.scalar x)
      | .array _ => v.prime ++ "=[]".toList) := by
    intro s
    cases s with
    | scalar x => exact h.prime.entryValue x
    | array _ => exact h.prime.entryBrackets
  cases pred <;> cases succ <;> first | exact h.prime.entry | exact hv s

theorem shown_succName (pred : Req) (succ : Option SReq) (s : VArg ℚ) :
    finalText fmt v.prime (v.succName fmt pred succ s) s =
      Spec.shown fmt v.prime (Spec.specified pred || succ.isSome) s := by
  cases s with
  | scalar x => rfl
  | array xs => cases pred <;> cases succ <;> rfl

/-- C61: stepping a variable that has a transition matrix.  For any predecessor it
can evaluate and any successor values meant by the arguments, all in the variable's
set: the result is the distribution of the successor given the predecessor, with
the successor on the outer axis, and the probability for values x' and x is the
entry of the matrix in the row of x' and the column of x, rows and columns in
increasing order of the values. -/
theorem C61_matrix (h : Spec.GoodName fmt v) (hset : v.vset.Nodup) (reverse : Bool)
    (m : List (List ℝ)) (hm : Spec.Uses v reverse m) (hsq : isSquare m = true)
    (hlen : v.vset.length = m.length) (b : PScale) (hb : evalPscale v.pscale = .ok b)
    (pred : Req) (r : ℕ) (perm : List ℕ) (q : VArg ℚ) (hq : v.evaluate pred r perm = .ok q)
    (succ : Option SReq) (s : VArg ℚ) (ha : Spec.Asked v q succ s)
    (hs : Spec.Within v.vset s) (hqw : Spec.Within v.vset q)
    (hpos : ∀ n ∈ s.sizes ++ q.sizes, 0 < n) (r' : ℕ) (perm' : List ℕ) (u : ℝ) :
    ∃ d, v.step fmt pred succ reverse r perm r' perm' u = .ok d ∧ d.WF fmt ∧
      d.marg = [(v.name ++ ['\''],
        Spec.shown fmt (v.name ++ ['\'']) (Spec.specified pred || succ.isSome) s)] ∧
      d.cond = [(v.name, Spec.shown fmt v.name (Spec.specified pred) q)] ∧
      d.values (v.name ++ ['\'']) = some s.toVal ∧ d.values v.name = some q.toVal ∧
      d.axis (v.name ++ ['\'']) = (if s.isscalar then none else some 0) ∧
      d.axis v.name = (if q.isscalar then none else some s.sizes.length) ∧
      d.shape = s.sizes ++ q.sizes ∧ d.pscale = b ∧
      ∀ i j x' x, s.entry i = some x' → q.entry j = some x →
        Spec.entry m (Spec.rank v.vset x') (Spec.rank v.vset x) (d.prob.get (i ++ j)) := by
  have htr : v.tran ≠ .none := by
    rcases hm with h | ⟨n, h, _⟩ | ⟨n, h, _⟩ <;> simp [h]
  obtain ⟨req, h1, h2⟩ := asked_succ ha htr reverse r' perm' u
  obtain ⟨out, h3, h4, h5⟩ := lookup_values hset m hsq hlen s q hs hqw
  obtain ⟨d, d1, d2, d3, d4, d5, d6, d7, d8, d9, d10, d11, d12⟩ :=
    build_two h (entry_distName h pred) (entry_succName h pred succ s) s q hpos _ h4 v.pscale b hb
  refine ⟨d, ?_, d2, by rw [d3, shown_succName]; rfl, by rw [d4, shown_distName hq], d6, d7, d8, d9, d10, d12,
    by rw [d11]; exact h5⟩
  simp only [DRV.step, hq, h1, h2, DRV.evalTran, hm.mat, h3, bind, Except.bind, pure, Except.pure]
  exact d1

theorem map_rank_perm {vset : List ℚ} (hset : vset.Nodup) :
    (vset.map (Spec.rank vset)).Perm (List.range vset.length) := by
  have h1 := ((List.mergeSort_perm vset (· ≤ ·)).map (Spec.rank vset)).symm
  refine h1.trans (List.Perm.of_eq ?_)
  apply List.ext_getElem?
  intro i
  rw [List.getElem?_map]
  by_cases hi : i < vset.length
  · have hi' : i < (vset.mergeSort (· ≤ ·)).length := by rw [List.length_mergeSort]; exact hi
    rw [List.getElem?_eq_getElem hi', List.getElem?_range hi]
    simp only [Option.map_some, Option.some.injEq]
    rw [Spec.rank, ← (List.mergeSort_perm vset (· ≤ ·)).countP_eq]
    exact countP_rank _ (sorted_lt hset) i _ (List.getElem?_eq_getElem hi')
  · rw [List.getElem?_eq_none (by rw [List.length_mergeSort]; omega), List.getElem?_eq_none (by simp; omega)]
    rfl

theorem within_vset (vset : List ℚ) : Spec.Within vset (.array vset) := by
  intro i x h
  rcases i with _ | ⟨i, _ | ⟨k, is⟩⟩ <;> simp only [VArg.entry] at h
  all_goals try simp at h
  exact List.mem_of_getElem? (by simpa using h)

/-- C61: stepping without arguments a variable whose transition matrix has columns
summing to one gives a conditional distribution: for every predecessor the
probabilities of all successors sum to one. -/
theorem C61_columns (h : Spec.GoodName fmt v) (hset : v.vset.Nodup) (hne : v.vset ≠ [])
    (reverse : Bool) (m : List (List ℝ)) (hm : Spec.Uses v reverse m) (hsq : isSquare m = true)
    (hlen : v.vset.length = m.length) (hb : evalPscale v.pscale = .ok (.lin 1)) (hd : v.delta = none)
    (hcol : ∀ j w, j < m.length → Spec.IsColumn m j w → w.sum = 1)
    (r : ℕ) (perm : List ℕ) (r' : ℕ) (perm' : List ℕ) (u : ℝ) :
    ∃ d, v.step fmt .all none reverse r perm r' perm' u = .ok d ∧ d.WF fmt ∧
      d.shape = [v.vset.length, v.vset.length] ∧
      d.values (v.name ++ ['\'']) = some (.arr [v.vset.length] v.vset) ∧
      d.values v.name = some (.arr [v.vset.length] v.vset) ∧
      ∀ j < v.vset.length, ((List.range v.vset.length).map fun i => d.at [i, j]).sum = 1 := by
  have hlp : 0 < v.vset.length := List.length_pos_of_ne_nil hne
  obtain ⟨d, h1, h2, _, _, h3, h4, _, _, h5, h6, h7⟩ := C61_matrix h hset reverse m hm hsq hlen _ hb
    .all r perm _ rfl none _ (.same v.vset hd rfl) (within_vset _) (within_vset _)
    (by simp [VArg.sizes, hlp]) r' perm' u
  refine ⟨d, h1, h2, h5, h3, h4, ?_⟩
  intro j hj
  have hrj : Spec.rank v.vset v.vset[j] < m.length := by
    have := rank_lt hset (List.getElem_mem hj)
    rw [List.length_mergeSort] at this; omega
  have hval : ∀ x, Spec.value (.lin 1) x = x := fun x => by simp [Spec.value]
  -- the column of the matrix
  have hrow : ∀ i (hi : i < m.length), ∃ x, m[i][Spec.rank v.vset v.vset[j]]? = some x := by
    intro i hi
    have hr : m[i].length = m.length := by
      have := List.all_eq_true.mp hsq _ (List.getElem_mem hi)
      simpa using this
    exact ⟨_, List.getElem?_eq_getElem (by omega)⟩
  set c := Spec.rank v.vset v.vset[j] with hc
  let w : List ℝ := m.map fun row => row.getD c 0
  have hw : Spec.IsColumn m c w := by
    refine ⟨by simp [w], ?_⟩
    intro i hi
    obtain ⟨x, hx⟩ := hrow i hi
    simp only [w, List.getElem?_map, List.getElem?_eq_getElem hi, Option.map_some, List.getD, hx,
      Option.getD_some]
  have hsum := hcol c w hrj hw
  have hentry : ∀ i < v.vset.length, d.at [i, j] = w.getD ((v.vset.map (Spec.rank v.vset)).getD i 0) 0 := by
    intro i hi
    have := h7 [i] [j] v.vset[i] v.vset[j] (by simp [VArg.entry, hi]) (by simp [VArg.entry, hj])
    obtain ⟨row, hr1, hr2⟩ := this
    rw [PD.at, h6, hval]
    simp only [List.cons_append, List.nil_append] at hr2
    simp [w, List.getD, List.getElem?_map, List.getElem?_eq_getElem hi, hr1, hc, hr2]
  rw [List.map_congr_left (g := fun i => w.getD ((v.vset.map (Spec.rank v.vset)).getD i 0) 0)
    (fun i hi => hentry i (List.mem_range.mp hi))]
  have e1 : (List.range v.vset.length).map (fun i => w.getD ((v.vset.map (Spec.rank v.vset)).getD i 0) 0)
      = (v.vset.map (Spec.rank v.vset)).map (fun k => w.getD k 0) := by
    apply List.ext_getElem?
    intro i
    by_cases hi : i < v.vset.length
    · simp [List.getElem?_map, List.getElem?_range hi, List.getElem?_eq_getElem hi, List.getD]
    · simp [List.getElem?_eq_none, hi]
  have e2 : (List.range v.vset.length).map (fun k => w.getD k 0) = w := by
    have hwl : w.length = v.vset.length := by simp [w, hlen]
    apply List.ext_getElem?
    intro i
    by_cases hi : i < v.vset.length
    · simp [List.getElem?_map, List.getElem?_range hi, List.getD,
        List.getElem?_eq_getElem (show i < w.length by omega)]
    · rw [List.getElem?_eq_none (by simp; omega), List.getElem?_eq_none (by omega)]
  rw [e1, ((map_rank_perm hset).map _).sum_eq, e2, hsum]

/-- C61: from a single predecessor without a delta the successor is drawn from the
predecessor's column: member number `k` exactly when the uniform draw falls in the
k-th interval of the column's running sums, and the probability reported is that
entry of the column. -/
theorem C61_sampled (h : Spec.GoodName fmt v) (hset : v.vset.Nodup) (reverse : Bool)
    (m : List (List ℝ)) (hm : Spec.Uses v reverse m) (hsq : isSquare m = true)
    (hlen : v.vset.length = m.length) (b : PScale) (hb : evalPscale v.pscale = .ok b)
    (x : ℚ) (hx : x ∈ v.vset) (w : List ℝ)
    (hw : Spec.IsColumn m (Spec.rank v.vset x) w) (hpos : ∀ y ∈ w, 0 ≤ y) (hsum : w.sum = 1)
    (u : ℝ) (h0 : 0 ≤ u) (h1 : u < 1) (succ : Option SReq) (hs : succ = none ∨ succ = some (.unitInt 0))
    (hd : succ = none → v.delta = none)
    (r : ℕ) (perm : List ℕ) (r' : ℕ) (perm' : List ℕ) :
    ∃ d y, v.step fmt (.scalar x) succ reverse r perm r' perm' u = .ok d ∧ d.WF fmt ∧ y ∈ v.vset ∧
      d.marg = [(v.name ++ ['\''], eqText fmt (v.name ++ ['\'']) (.scalar y))] ∧
      d.cond = [(v.name, eqText fmt v.name (.scalar x))] ∧
      d.keylist = [v.name ++ ['\''], v.name] ∧
      d.values (v.name ++ ['\'']) = some (.scalar y) ∧ d.values v.name = some (.scalar x) ∧
      d.shape = [] ∧ d.pscale = b ∧
      some (d.prob.get []) = w[Spec.rank v.vset y]? ∧
      Spec.prefixSum w (Spec.rank v.vset y) ≤ u ∧ u < Spec.prefixSum w (Spec.rank v.vset y + 1) := by
  obtain ⟨k, hk, hk1, hk2⟩ := C32_inverse_cdf v.vset hset m hsq hlen _ (rank_lt hset hx) w hw hpos hsum
    u h0 h1
  rw [sorted_rank_get hset hx] at hk1
  set y := (v.vset.mergeSort (· ≤ ·))[k] with hy
  have hym : y ∈ v.vset := (List.mergeSort_perm _ _).mem_iff.mp (List.getElem_mem hk)
  have hyk : Spec.rank v.vset y = k := by
    rw [Spec.rank, ← (List.mergeSort_perm v.vset (· ≤ ·)).countP_eq]
    exact countP_rank _ (sorted_lt hset) k _ (List.getElem?_eq_getElem hk)
  have hkm : k < m.length := by rw [List.length_mergeSort] at hk; omega
  have hxm : Spec.rank v.vset x < m.length := by
    have := rank_lt hset hx; rw [List.length_mergeSort] at this; omega
  obtain ⟨z, hz, row, hz1, hz2⟩ := matEntry_of_square m hsq k _ hkm hxm
  obtain ⟨d, d1, d2, d3, d4, d5, d6, d7, d8, d9, d10, d11, d12⟩ :=
    build_two h (entry_distName h (.scalar x)) (entry_succName h (.scalar x) succ (.scalar y))
      (.scalar y) (.scalar x) (by simp [VArg.sizes]) ⟨[], fun _ => z⟩ rfl v.pscale b hb
  have hreq : v.defaultSucc (.scalar x) succ = .ok (.unitInt 0) := by
    rcases hs with rfl | rfl
    · have htr : v.tran ≠ .none := by
        rcases hm with h | ⟨n, h, _⟩ | ⟨n, h, _⟩ <;> simp [h]
      cases hT : v.tran <;> simp_all [DRV.defaultSucc]
    · rfl
  refine ⟨d, y, ?_, d2, hym, d3, d4, d5, d6, d7, d10, d12, ?_, ?_⟩
  · simp only [DRV.step, DRV.evaluate, hreq, DRV.succVals, DRV.evalTran, hm.mat, hk1, hz, bind,
      Except.bind, pure, Except.pure]
    exact d1
  · rw [d11, hyk, ← hw.2 k hkm]
    rw [List.getElem?_eq_getElem hkm] at hz1
    simp only [Option.some.injEq] at hz1
    subst hz1
    exact hz2.symm
  · rw [hyk]
    exact (hk2 k).mpr rfl

theorem mapM_ok_each {α β : Type} {f : α → Py β} {l : List α} {r : List β} (h : l.mapM f = .ok r) :
    ∀ a ∈ l, ∃ b, f a = .ok b := by
  induction l generalizing r with
  | nil => simp
  | cons a l ih =>
    rw [List.mapM_cons] at h
    rcases hf : f a with e | b
    · rw [hf] at h; simp [bind, Except.bind] at h
    · rw [hf] at h
      rcases hl : l.mapM f with e | bs
      · rw [hl] at h; simp [bind, Except.bind] at h
      · intro c hc
        rcases List.mem_cons.mp hc with rfl | hc
        · exact ⟨b, hf⟩
        · exact ih hl c hc

theorem indexOf_mem {α : Type} [DecidableEq α] {l : List α} {x : α} {i : ℕ} (h : indexOf l x = .ok i) :
    x ∈ l := by
  unfold indexOf at h
  rcases hf : l.findIdx? (fun w => decide (w = x)) with _ | j
  · rw [hf] at h; simp at h
  · rw [List.findIdx?_eq_some_iff_getElem] at hf
    obtain ⟨hj, he, _⟩ := hf
    simp only [decide_eq_true_eq] at he
    rw [← he]; exact List.getElem_mem hj

/-- A successful lookup only saw members of the set. -/
theorem lookup_within {vset : List ℚ} {m : List (List ℝ)} {s q : VArg ℚ} {out : LookupOut}
    (h : lookupSquareMatrix q s m vset = .ok out) : Spec.Within vset s ∧ Spec.Within vset q := by
  have hmem : ∀ x i, indexOf (vset.mergeSort (· ≤ ·)) x = .ok i → x ∈ vset := fun x i hx =>
    (List.mergeSort_perm _ _).mem_iff.mp (indexOf_mem hx)
  have hsc : ∀ x i, indexOf (vset.mergeSort (· ≤ ·)) x = .ok i → Spec.Within vset (.scalar x) := by
    intro x i hx j y hy
    rcases j with _ | ⟨j, js⟩ <;> simp [VArg.entry] at hy
    subst hy; exact hmem x i hx
  have har : ∀ xs is, xs.mapM (indexOf (vset.mergeSort (· ≤ ·))) = .ok is →
      Spec.Within vset (.array xs) := by
    intro xs is hx j y hy
    rcases j with _ | ⟨j, _ | ⟨k, js⟩⟩ <;> simp only [VArg.entry] at hy
    all_goals try simp at hy
    obtain ⟨i, hi⟩ := mapM_ok_each hx y (List.mem_of_getElem? (by simpa using hy))
    exact hmem y i hi
  unfold lookupSquareMatrix at h
  split at h
  · simp at h
  split at h
  · simp at h
  cases s with
  | scalar x =>
    cases q with
    | scalar y =>
      simp only [bind, Except.bind] at h
      rcases hx : indexOf (vset.mergeSort (· ≤ ·)) x with e | i <;> rw [hx] at h
      · simp at h
      rcases hy : indexOf (vset.mergeSort (· ≤ ·)) y with e | j <;> rw [hy] at h
      · simp at h
      exact ⟨hsc x i hx, hsc y j hy⟩
    | array ys =>
      simp only [bind, Except.bind] at h
      rcases hx : indexOf (vset.mergeSort (· ≤ ·)) x with e | i <;> rw [hx] at h
      · simp at h
      rcases hy : ys.mapM (indexOf (vset.mergeSort (· ≤ ·))) with e | j <;> rw [hy] at h
      · simp at h
      exact ⟨hsc x i hx, har ys j hy⟩
  | array xs =>
    cases q with
    | scalar y =>
      simp only [bind, Except.bind] at h
      rcases hx : xs.mapM (indexOf (vset.mergeSort (· ≤ ·))) with e | i <;> rw [hx] at h
      · simp at h
      rcases hy : indexOf (vset.mergeSort (· ≤ ·)) y with e | j <;> rw [hy] at h
      · simp at h
      exact ⟨har xs i hx, hsc y j hy⟩
    | array ys =>
      simp only [bind, Except.bind] at h
      rcases hx : xs.mapM (indexOf (vset.mergeSort (· ≤ ·))) with e | i <;> rw [hx] at h
      · simp at h
      rcases hy : ys.mapM (indexOf (vset.mergeSort (· ≤ ·))) with e | j <;> rw [hy] at h
      · simp at h
      exact ⟨har xs i hx, har ys j hy⟩

/-- C61: with a transition matrix, predecessor or successor values outside the set
are refused, wherever they come from (a delta in particular). -/
theorem C61_outside_raises (fmt : Val → Str) (v : DRV) (reverse : Bool) (m : List (List ℝ))
    (hm : Spec.Uses v reverse m) (pred : Req) (r : ℕ) (perm : List ℕ) (q : VArg ℚ)
    (hq : v.evaluate pred r perm = .ok q) (succ : Option SReq) (s : VArg ℚ)
    (ha : Spec.Asked v q succ s) (hout : ¬ Spec.Within v.vset s ∨ ¬ Spec.Within v.vset q)
    (r' : ℕ) (perm' : List ℕ) (u : ℝ) :
    Raises (v.step fmt pred succ reverse r perm r' perm' u) := by
  have htr : v.tran ≠ .none := by
    rcases hm with h | ⟨n, h, _⟩ | ⟨n, h, _⟩ <;> simp [h]
  obtain ⟨req, h1, h2⟩ := asked_succ ha htr reverse r' perm' u
  rcases hl : lookupSquareMatrix q s m v.vset with e | out
  · exact ⟨e, by simp only [DRV.step, hq, h1, h2, DRV.evalTran, hm.mat, hl, bind, Except.bind]⟩
  · obtain ⟨h3, h4⟩ := lookup_within hl
    rcases hout with h | h
    · exact absurd h3 h
    · exact absurd h4 h

/-- C61: a successor cannot be asked for by its cumulative probability `{u}`, nor,
with a transition matrix, in numbers `{n}` other than zero. -/
theorem C61_request_raises (fmt : Val → Str) (v : DRV) (reverse : Bool) (pred : Req) (r : ℕ)
    (perm : List ℕ) (succ : SReq)
    (hs : (∃ w, succ = .unitFlt w) ∨ (∃ n m, succ = .unitInt n ∧ n ≠ 0 ∧ Spec.Uses v reverse m))
    (r' : ℕ) (perm' : List ℕ) (u : ℝ) :
    Raises (v.step fmt pred (some succ) reverse r perm r' perm' u) := by
  unfold DRV.step
  rcases v.evaluate pred r perm with e | q
  · exact ⟨_, rfl⟩
  have : Raises (v.succVals q succ reverse r' perm' u) := by
    have hsample : ∀ (m : List (List ℝ)) (x : ℚ) (req : SuccReq), req ≠ .int 0 →
        ∃ e, matrixCondSample x req m v.vset u = .error e :=
      fun m x req hreq => C32_request_raises v.vset m x req u hreq
    rcases hs with ⟨w, rfl⟩ | ⟨n, m, rfl, hn, hm⟩
    · rcases hmat : v.tran.mat reverse with _ | m
      · refine ⟨.assertion, ?_⟩
        simp only [DRV.succVals, hmat]
        cases v.tran <;> rfl
      · cases q with
        | array qs => exact ⟨.assertion, by simp [DRV.succVals, hmat]⟩
        | scalar x =>
          obtain ⟨e, he⟩ := hsample m x (.flt w) (by simp)
          exact ⟨e, by simp [DRV.succVals, hmat, he, bind, Except.bind]⟩
    · cases q with
      | array qs => exact ⟨.assertion, by simp [DRV.succVals, hm.mat]⟩
      | scalar x =>
        obtain ⟨e, he⟩ := hsample m x (.int n) (by simpa using hn)
        exact ⟨e, by simp [DRV.succVals, hm.mat, he, bind, Except.bind]⟩
  obtain ⟨e, he⟩ := this
  exact ⟨e, by simp [DRV.defaultSucc, he, bind, Except.bind]⟩

/-- C61: without a transition a successor has to be given. -/
theorem C61_no_transition_raises (fmt : Val → Str) (v : DRV) (ht : v.tran = .none) (reverse : Bool)
    (pred : Req) (r : ℕ) (perm : List ℕ) (r' : ℕ) (perm' : List ℕ) (u : ℝ) :
    Raises (v.step fmt pred none reverse r perm r' perm' u) := by
  unfold DRV.step
  rcases v.evaluate pred r perm with e | q
  · exact ⟨_, rfl⟩
  · exact ⟨.assertion, by simp [DRV.defaultSucc, ht, bind, Except.bind]⟩

theorem outer_get (s q : VArg ℚ) (f : ℚ → ℚ → ℝ) (i j : List ℕ) (x y : ℚ) (hi : s.entry i = some x)
    (hj : q.entry j = some y) : (outer s q f).get (i ++ j) = f x y := by
  have hl : i.length = s.sizes.length := by
    cases s <;> rcases i with _ | ⟨a, _ | ⟨b, is⟩⟩ <;> simp_all [VArg.entry, VArg.sizes]
  simp only [outer, ← hl, List.take_left', List.drop_left', hi, hj]

/-- C61: stepping a variable with a scalar transition (as by default): the number
itself for members of the set, zero as soon as one of the two values is not a
member; without transition one for every pair of values. -/
theorem C61_scalar (h : Spec.GoodName fmt v) (t : Option ℝ)
    (ht : v.tran = match t with | some p => .scalar p | none => .none) (b : PScale)
    (hb : evalPscale v.pscale = .ok b) (reverse : Bool)
    (pred : Req) (r : ℕ) (perm : List ℕ) (q : VArg ℚ) (hq : v.evaluate pred r perm = .ok q)
    (succ : Option SReq) (s : VArg ℚ) (ha : Spec.Asked v q succ s) (hsome : t = none → succ ≠ none)
    (hpos : ∀ n ∈ s.sizes ++ q.sizes, 0 < n) (r' : ℕ) (perm' : List ℕ) (u : ℝ) :
    ∃ d, v.step fmt pred succ reverse r perm r' perm' u = .ok d ∧ d.WF fmt ∧
      d.marg = [(v.name ++ ['\''],
        Spec.shown fmt (v.name ++ ['\'']) (Spec.specified pred || succ.isSome) s)] ∧
      d.cond = [(v.name, Spec.shown fmt v.name (Spec.specified pred) q)] ∧
      d.values (v.name ++ ['\'']) = some s.toVal ∧ d.values v.name = some q.toVal ∧
      d.shape = s.sizes ++ q.sizes ∧ d.pscale = b ∧
      ∀ i j x' x, s.entry i = some x' → q.entry j = some x →
        d.prob.get (i ++ j) = match t with
          | some p => if x ∈ v.vset ∧ x' ∈ v.vset then p else 0
          | none => 1 := by
  have hmat : v.tran.mat reverse = none := by
    rcases t with _ | p <;> simp only at ht <;> simp [ht, RVTran.mat]
  have hreq : ∃ req, v.defaultSucc q succ = .ok req ∧
      v.succVals q req reverse r' perm' u = .ok (s, none) := by
    rcases t with _ | p
    · simp only at ht
      cases ha with
      | scalar x => exact ⟨_, rfl, by simp [DRV.succVals, ht, RVTran.mat]⟩
      | array xs => exact ⟨_, rfl, by simp [DRV.succVals, ht, RVTran.mat]⟩
      | moved f hd => exact absurd rfl (hsome rfl)
      | same xs hd hq => exact absurd rfl (hsome rfl)
    · simp only at ht
      exact asked_succ ha (by simp [ht]) reverse r' perm' u
  obtain ⟨req, h1, h2⟩ := hreq
  let f : ℚ → ℚ → ℝ := fun s' q' => match t with
    | some p => rvEvalTranScalar (insideD v.vset) p q' s'
    | none => 1
  have h3 : v.evalTran q s none reverse = .ok (outer s q f) := by
    rcases t with _ | p <;> simp only at ht <;> simp [DRV.evalTran, ht, RVTran.mat, f]
  obtain ⟨d, d1, d2, d3, d4, d5, d6, d7, d8, d9, d10, d11, d12⟩ :=
    build_two h (entry_distName h pred) (entry_succName h pred succ s) s q hpos (outer s q f) rfl
      v.pscale b hb
  refine ⟨d, ?_, d2, by rw [d3, shown_succName]; rfl, by rw [d4, shown_distName hq], d6, d7, d10, d12, ?_⟩
  · simp only [DRV.step, hq, h1, h2, h3, bind, Except.bind]
    exact d1
  · intro i j x' x hi hj
    rw [d11, outer_get s q f i j x' x hi hj]
    rcases t with _ | p
    · rfl
    · exact C56_linear v.vset p x x'

/-- C61: with a scalar transition or none, `{n}` asks for as many successors as
calling the variable with `{n}` gives, drawn afresh; so does a single predecessor
without a delta when no successor is given, for one. -/
theorem C61_drawn (h : Spec.GoodName fmt v) (t : Option ℝ)
    (ht : v.tran = match t with | some p => .scalar p | none => .none) (b : PScale)
    (hb : evalPscale v.pscale = .ok b) (reverse : Bool)
    (pred : Req) (r : ℕ) (perm : List ℕ) (q : VArg ℚ) (hq : v.evaluate pred r perm = .ok q)
    (succ : Option SReq) (n : ℤ) (hn : succ = some (.unitInt n) ∨
      succ = none ∧ n = 0 ∧ v.delta = none ∧ (∃ x, q = .scalar x) ∧ t ≠ none)
    (r' : ℕ) (perm' : List ℕ) (u : ℝ)
    (s : VArg ℚ) (hs : v.evaluate (.count n) r' perm' = .ok s)
    (hpos : ∀ n ∈ s.sizes ++ q.sizes, 0 < n) :
    ∃ d, v.step fmt pred succ reverse r perm r' perm' u = .ok d ∧ d.WF fmt ∧
      d.marg = [(v.name ++ ['\''],
        Spec.shown fmt (v.name ++ ['\'']) (Spec.specified pred || succ.isSome) s)] ∧
      d.cond = [(v.name, Spec.shown fmt v.name (Spec.specified pred) q)] ∧
      d.values (v.name ++ ['\'']) = some s.toVal ∧ d.values v.name = some q.toVal ∧
      d.shape = s.sizes ++ q.sizes ∧ d.pscale = b ∧
      ∀ i j x' x, s.entry i = some x' → q.entry j = some x →
        d.prob.get (i ++ j) = match t with
          | some p => if x ∈ v.vset ∧ x' ∈ v.vset then p else 0
          | none => 1 := by
  have hsv : v.succVals q (.unitInt n) reverse r' perm' u = .ok (s, none) := by
    rcases t with _ | p <;> simp only at ht <;>
      simp [DRV.succVals, ht, RVTran.mat, hs, bind, Except.bind, pure, Except.pure]
  have h1 : v.defaultSucc q succ = .ok (.unitInt n) := by
    rcases hn with rfl | ⟨rfl, rfl, hd, ⟨x, rfl⟩, hne⟩
    · rfl
    · rcases t with _ | p
      · exact absurd rfl hne
      · simp only at ht
        simp [DRV.defaultSucc, ht, hd]
  let f : ℚ → ℚ → ℝ := fun s' q' => match t with
    | some p => rvEvalTranScalar (insideD v.vset) p q' s'
    | none => 1
  have h3 : v.evalTran q s none reverse = .ok (outer s q f) := by
    rcases t with _ | p <;> simp only at ht <;> simp [DRV.evalTran, ht, RVTran.mat, f]
  obtain ⟨d, d1, d2, d3, d4, d5, d6, d7, d8, d9, d10, d11, d12⟩ :=
    build_two h (entry_distName h pred) (entry_succName h pred succ s) s q hpos (outer s q f) rfl
      v.pscale b hb
  refine ⟨d, ?_, d2, by rw [d3, shown_succName]; rfl, by rw [d4, shown_distName hq], d6, d7, d10, d12, ?_⟩
  · simp only [DRV.step, hq, h1, hsv, h3, bind, Except.bind]
    exact d1
  · intro i j x' x hi hj
    rw [d11, outer_get s q f i j x' x hi hj]
    rcases t with _ | p
    · rfl
    · exact C56_linear v.vset p x x'

/-- `C61_drawn` is not vacuous: two successors of one predecessor. -/
example : ∃ d, (⟨['x'], [1, 2, 3], .none, .scalar (1 / 3), .scalar (1 / 3), none⟩ : DRV).step
    (fun _ => ['v']) (.scalar 3) (some (.unitInt 2)) false 0 [] 0 [] 0 = .ok d ∧ d.shape = [2] := by
  have hg : Spec.GoodName (fun _ => ['v'])
      (⟨['x'], [1, 2, 3], .none, .scalar (1 / 3), .scalar (1 / 3), none⟩ : DRV) :=
    ⟨by decide, by decide, by decide, by decide, by decide, by decide, by decide,
      by simp, by simp, by simp, by simp⟩
  obtain ⟨d, h1, _, _, _, _, _, h2, _⟩ := C61_drawn hg (some (1 / 3)) rfl (.lin 1)
    (by simp [evalPscale]) false (.scalar 3) 0 [] (.scalar 3) rfl (some (.unitInt 2)) 2 (.inl rfl) 0 [] 0
    (.array [1, 2]) rfl (by simp [VArg.sizes])
  exact ⟨d, h1, h2⟩

/-- C61 is not vacuous: a two-state chain declared in decreasing order. -/
noncomputable def chain : DRV :=
  ⟨['x'], [2, 1], .none, .scalar (1 / 2), .matrix [[3 / 4, 1 / 2], [1 / 4, 1 / 2]], none⟩

theorem chain_named (f : Val → Str) (hf : f = fun _ => ['v']) : Spec.GoodName f chain := by
  subst hf
  exact ⟨by decide, by decide, by decide, by decide, by decide, by decide, by decide,
    by simp, by simp, by simp, by simp⟩

example : ∃ d, chain.step (fun _ => ['v']) .all none false 0 [] 0 [] 0 = .ok d ∧ d.shape = [2, 2] ∧
    d.prob.get [0, 1] = 1 / 4 ∧ ((List.range 2).map fun i => d.at [i, 1]).sum = 1 := by
  have hset : chain.vset.Nodup := by simp [chain]
  have hb : evalPscale chain.pscale = .ok (.lin 1) := by simp [chain, evalPscale]
  have hsq : isSquare [[(3 / 4 : ℝ), 1 / 2], [1 / 4, 1 / 2]] = true := by simp [isSquare]
  obtain ⟨d, h1, _, h2, _, _, h3⟩ := C61_columns (chain_named _ rfl) hset (by simp [chain]) false _
    (.inl rfl) hsq rfl hb rfl (by
      intro j w hj hw
      obtain ⟨hl, hw⟩ := hw
      rcases w with _ | ⟨a, _ | ⟨c, _ | ⟨e, w⟩⟩⟩ <;> simp at hl
      have h0 := hw 0 (by simp)
      have h1 := hw 1 (by simp)
      simp only [List.length_cons, List.length_nil] at hj
      have : j = 0 ∨ j = 1 := by omega
      rcases this with rfl | rfl <;> simp at h0 h1 <;> subst h0 h1 <;> norm_num) 0 [] 0 [] 0
  obtain ⟨d', g1, _, _, _, _, _, _, _, _, _, g2⟩ := C61_matrix (chain_named _ rfl) hset false _ (.inl rfl)
    hsq rfl _ hb .all 0 [] _ rfl none _ (.same chain.vset rfl rfl) (within_vset _) (within_vset _)
    (by simp [VArg.sizes, chain]) 0 [] 0
  rw [h1] at g1
  obtain rfl := Except.ok.inj g1
  refine ⟨d, h1, h2, ?_, h3 1 (by simp [chain])⟩
  obtain ⟨row, r1, r2⟩ := g2 [0] [1] 2 1 (by simp [VArg.entry, chain]) (by simp [VArg.entry, chain])
  have e1 : Spec.rank chain.vset 2 = 1 := by decide
  have e2 : Spec.rank chain.vset 1 = 0 := by decide
  rw [e1] at r1
  rw [e2] at r2
  simp at r1
  subst r1
  simpa using r2.symm

end Probayes
