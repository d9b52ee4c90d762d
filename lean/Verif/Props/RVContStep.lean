/-
Property C81: stepping a continuous random variable.
-/
import Verif.Props.RVCont

namespace Probayes

/-- A transition function gives one number for every pair of successor and
predecessor, successors along the first axis, by those of `g` (of predecessor and
successor). -/
def Spec.Pairwise (f : VArg ℝ → VArg ℝ → Py Arr) (g : ℝ → ℝ → ℝ) : Prop :=
  ∀ p s, ∃ a, f p s = .ok a ∧ a.shape = Spec.sizesOf s ++ Spec.sizesOf p ∧
    ∀ i j y x, s.entry i = some y → p.entry j = some x → a.get (i ++ j) = g x y

/-- The conditional numbers of a transition from `x` to `y`: one without transition;
for a constant, that constant if both are members of the set and zero if not; the
values of the function, and of the second of two functions in reverse. -/
def Spec.Conditional (s : FSet) : CTran → Bool → (ℝ → ℝ → ℝ) → Prop
  | .none, _, g => ∀ x y, g x y = 1
  | .scalar p, _, g => ∀ x y, (Spec.MemF s x ∧ Spec.MemF s y → g x y = p) ∧
      (¬ (Spec.MemF s x ∧ Spec.MemF s y) → g x y = 0)
  | .fn f, _, g => Spec.Pairwise f g
  | .pair f _, false, g => Spec.Pairwise f g
  | .pair _ r, true, g => Spec.Pairwise r g

/-- The distribution of successors `s` given predecessors `p`. -/
structure Spec.Stepped (fmt : ℝ → Str) (v : CRV) (b : PScale) (g : ℝ → ℝ → ℝ) (s p : VArg ℝ)
    (d : CDist) : Prop where
  marg : d.marg = Spec.valueText fmt (v.name ++ ['\'']) s
  cond : d.cond = Spec.valueText fmt v.name p
  vals : d.vals = [(v.name ++ ['\''], s, Spec.axisAlong 0 s),
    (v.name, p, Spec.axisAlong (Spec.sizesOf s).length p)]
  shape : d.prob.shape = Spec.sizesOf s ++ Spec.sizesOf p
  prob : ∀ i j y x, s.entry i = some y → p.entry j = some x → d.prob.get (i ++ j) = g x y
  pscale : d.pscale = b

theorem sizesOf_eq (x : VArg ℝ) : Spec.sizesOf x = x.sizes := by cases x <;> rfl

theorem entry_length {x : VArg ℝ} {i : List ℕ} {y : ℝ} (h : x.entry i = some y) :
    i.length = x.sizes.length := by
  match x, i, h with
  | .scalar _, [], _ => rfl
  | .array _, [_], _ => rfl
  | .scalar _, _ :: _, h => simp [VArg.entry] at h
  | .array _, [], h => simp [VArg.entry] at h
  | .array _, _ :: _ :: _, h => simp [VArg.entry] at h

theorem outerC_get (s p : VArg ℝ) (f : ℝ → ℝ → ℝ) (i j : List ℕ) (y x : ℝ)
    (hy : s.entry i = some y) (hx : p.entry j = some x) : (outerC s p f).get (i ++ j) = f y x := by
  have h1 : (i ++ j).take s.sizes.length = i := by rw [← entry_length hy]; simp
  have h2 : (i ++ j).drop s.sizes.length = j := by rw [← entry_length hy]; simp
  simp only [outerC, h1, h2, hy, hx]

theorem evalTran_spec (v : CRV) (s : FSet) (hs : v.var = FloatVar.make s) (reverse : Bool)
    (g : ℝ → ℝ → ℝ) (hg : Spec.Conditional s v.tran reverse g) (p q : VArg ℝ) :
    ∃ a, v.evalTran p q reverse = .ok a ∧ a.shape = q.sizes ++ p.sizes ∧
      ∀ i j y x, q.entry i = some y → p.entry j = some x → a.get (i ++ j) = g x y := by
  have lift : ∀ f, Spec.Pairwise f g → ∃ a, f p q = .ok a ∧ a.shape = q.sizes ++ p.sizes ∧
      ∀ i j y x, q.entry i = some y → p.entry j = some x → a.get (i ++ j) = g x y := by
    intro f hf
    obtain ⟨a, h1, h2, h3⟩ := hf p q
    exact ⟨a, h1, by rw [h2, sizesOf_eq, sizesOf_eq], h3⟩
  unfold CRV.evalTran
  cases ht : v.tran with
  | none =>
    rw [ht] at hg
    refine ⟨_, rfl, rfl, fun i j y x hy hx => ?_⟩
    rw [outerC_get _ _ _ _ _ _ _ hy hx, hg x y]
  | scalar c =>
    rw [ht] at hg
    refine ⟨_, rfl, rfl, fun i j y x hy hx => ?_⟩
    rw [outerC_get _ _ _ _ _ _ _ hy hx]
    have hin : ∀ z, v.var.inside z = true ↔ Spec.MemF s z := by
      intro z; rw [hs]; exact C08_inside_float s z
    by_cases hx' : Spec.MemF s x
    · by_cases hy' : Spec.MemF s y
      · rw [(hg x y).1 ⟨hx', hy'⟩]
        simp [rvEvalTranScalar, uniformProb, (hin x).mpr hx', (hin y).mpr hy']
      · have := mt (hin y).mp hy'
        rw [(hg x y).2 (fun h => hy' h.2)]
        simp [rvEvalTranScalar, uniformProb, this, pZero]
    · have := mt (hin x).mp hx'
      rw [(hg x y).2 (fun h => hx' h.1)]
      simp [rvEvalTranScalar, uniformProb, this, pZero]
  | fn f =>
    rw [ht] at hg
    exact lift f hg
  | pair f r =>
    rw [ht] at hg
    cases reverse with
    | false => exact lift f hg
    | true => exact lift r hg

theorem step_spec (fmt : ℝ → Str) (v : CRV) (s : FSet) (hs : v.var = FloatVar.make s) (b : PScale)
    (hb : evalPscale v.pscale = .ok b) (reverse : Bool) (g : ℝ → ℝ → ℝ)
    (hg : Spec.Conditional s v.tran reverse g) (pred succ req : CReq) (r0 r1 : ℕ → ℝ) (p q : VArg ℝ)
    (hp : v.evaluate true pred r0 = .ok p) (hd : v.defaultSucc p succ = .ok req)
    (hq : v.succVals p req r1 = .ok q) :
    ∃ d, v.step fmt pred succ reverse r0 r1 = .ok d ∧ Spec.Stepped fmt v b g q p d := by
  obtain ⟨a, h1, h2, h3⟩ := evalTran_spec v s hs reverse g hg p q
  refine ⟨⟨CRV.text fmt v.prime q, CRV.text fmt v.name p,
    [(v.prime, q, (stepDims q p).1), (v.name, p, (stepDims q p).2)], a, b⟩, ?_,
    ⟨text_eq fmt _ q, text_eq fmt _ p, ?_, ?_, h3, rfl⟩⟩
  · simp [CRV.step, hp, hd, hq, h1, CDist.build, hb, bind, Except.bind, pure, Except.pure, h2]
  · cases q <;> cases p <;> rfl
  · show a.shape = _
    rw [h2, sizesOf_eq, sizesOf_eq]

/-- The request asks for exactly these values. -/
inductive Spec.GivenAs : CReq → VArg ℝ → Prop
  | scalar (x : ℝ) : Spec.GivenAs (.scalar x) (.scalar x)
  | array (xs : List ℝ) : Spec.GivenAs (.array xs) (.array xs)

theorem asks_evaluate {v : CRV} {req : CReq} {x : VArg ℝ} (h : Spec.GivenAs req x) (use : Bool)
    (rand : ℕ → ℝ) : v.evaluate use req rand = .ok x := by
  cases h <;> rfl

theorem asks_succ {v : CRV} {req : CReq} {x : VArg ℝ} (h : Spec.GivenAs req x) (p : VArg ℝ)
    (rand : ℕ → ℝ) : v.defaultSucc p req = .ok req ∧ v.succVals p req rand = .ok x := by
  cases h <;> refine ⟨rfl, ?_⟩ <;> unfold CRV.succVals <;> cases v.tran <;> rfl

/-! ### Values given -/

/-- C81: stepping between given values — numbers or arrays, members of the set or
not — has exactly these values, and the transition's number for every pair. -/
theorem C81_given (fmt : ℝ → Str) (v : CRV) (s : FSet) (hs : v.var = FloatVar.make s) (b : PScale)
    (hb : evalPscale v.pscale = .ok b) (reverse : Bool) (g : ℝ → ℝ → ℝ)
    (hg : Spec.Conditional s v.tran reverse g) (pred succ : CReq) (p q : VArg ℝ)
    (hp : Spec.GivenAs pred p) (hq : Spec.GivenAs succ q) (r0 r1 : ℕ → ℝ) :
    ∃ d, v.step fmt pred succ reverse r0 r1 = .ok d ∧ Spec.Stepped fmt v b g q p d :=
  step_spec fmt v s hs b hb reverse g hg pred succ succ r0 r1 p q (asks_evaluate hp _ _)
    (asks_succ hq p r1).1 (asks_succ hq p r1).2

/-- C81: a transition function that does not return one number for every pair is
refused. -/
theorem C81_shape_refused (fmt : ℝ → Str) (v : CRV) (b : PScale) (hb : evalPscale v.pscale = .ok b)
    (f : VArg ℝ → VArg ℝ → Py Arr) (ht : v.tran = .fn f) (pred succ : CReq) (p q : VArg ℝ)
    (hp : Spec.GivenAs pred p) (hq : Spec.GivenAs succ q) (a : Arr) (ha : f p q = .ok a)
    (hne : a.shape ≠ Spec.sizesOf q ++ Spec.sizesOf p) (reverse : Bool) (r0 r1 : ℕ → ℝ) :
    v.step fmt pred succ reverse r0 r1 = .error .assertion := by
  rw [sizesOf_eq, sizesOf_eq] at hne
  simp [CRV.step, asks_evaluate hp, (asks_succ hq p r1).1, (asks_succ hq p r1).2, CRV.evalTran, ht,
    ha, CDist.build, hb, bind, Except.bind, hne]

/-- C81: predecessors that are asked for by number, or not given, are those of a call
with the same draws. -/
theorem C81_predecessors (fmt : ℝ → Str) (v : CRV) (s : FSet) (hs : v.var = FloatVar.make s)
    (b : PScale) (hb : evalPscale v.pscale = .ok b) (reverse : Bool) (g : ℝ → ℝ → ℝ)
    (hg : Spec.Conditional s v.tran reverse g) (pred succ : CReq) (q : VArg ℝ)
    (hq : Spec.GivenAs succ q) (r0 r1 : ℕ → ℝ) (d0 : CDist) (p : VArg ℝ) (k : Option ℕ)
    (h0 : v.call fmt pred r0 = .ok d0) (hv : d0.vals = [(v.name, p, k)]) :
    ∃ d, v.step fmt pred succ reverse r0 r1 = .ok d ∧ Spec.Stepped fmt v b g q p d := by
  have hp : v.evaluate true pred r0 = .ok p := by
    cases he : v.evaluate true pred r0 with
    | error e => simp [CRV.call, he, bind, Except.bind] at h0
    | ok p' =>
      cases hpr : v.evalProb p' with
      | error e => simp [CRV.call, he, hpr, bind, Except.bind] at h0
      | ok a =>
        simp only [CRV.call, he, hpr, CDist.build, hb, bind, Except.bind, pure, Except.pure] at h0
        generalize (if p'.isscalar = true then none else some 0 : Option ℕ) = k' at h0
        split at h0
        · cases h0
          simp only [List.cons.injEq, Prod.mk.injEq] at hv
          rw [hv.1.2.1]
        · cases h0
  exact step_spec fmt v s hs b hb reverse g hg pred succ succ r0 r1 p q hp
    (asks_succ hq p r1).1 (asks_succ hq p r1).2

/-! ### Default successors -/

/-- C81: without a successor and without a transition, stepping is refused. -/
theorem C81_no_transition_refused (fmt : ℝ → Str) (v : CRV) (ht : v.tran = .none) (pred : CReq)
    (p : VArg ℝ) (hp : Spec.GivenAs pred p) (reverse : Bool) (r0 r1 : ℕ → ℝ) :
    v.step fmt pred .none reverse r0 r1 = .error .assertion := by
  simp [CRV.step, asks_evaluate hp, CRV.defaultSucc, ht, bind, Except.bind]

/-- C81: with a transition the default successor is, when a delta is set, the
predecessor changed by it; otherwise one sampled value for a single predecessor, and
the predecessors themselves for an array. -/
theorem C81_default (fmt : ℝ → Str) (v : CRV) (ht : v.tran ≠ .none) (reverse : Bool)
    (r0 r1 : ℕ → ℝ) :
    (∀ f, v.delta = some f →
      (∀ x, v.step fmt (.scalar x) .none reverse r0 r1 =
        v.step fmt (.scalar x) (.scalar (f x)) reverse r0 r1) ∧
      (∀ xs, v.step fmt (.array xs) .none reverse r0 r1 =
        v.step fmt (.array xs) (.array (xs.map f)) reverse r0 r1)) ∧
    (v.delta = none →
      (∀ x, v.step fmt (.scalar x) .none reverse r0 r1 =
        v.step fmt (.scalar x) (.count 0) reverse r0 r1) ∧
      (∀ xs, v.step fmt (.array xs) .none reverse r0 r1 =
        v.step fmt (.array xs) (.array xs) reverse r0 r1)) := by
  have e : ∀ pred succ p q, v.evaluate true pred r0 = .ok p → v.defaultSucc p succ = .ok q →
      (∀ z, v.defaultSucc z q = .ok q) →
      v.step fmt pred succ reverse r0 r1 = v.step fmt pred q reverse r0 r1 := by
    intro pred succ p q h1 h2 h3
    simp only [CRV.step, h1, h2, h3, bind, Except.bind]
  refine ⟨fun f hf => ⟨fun x => ?_, fun xs => ?_⟩, fun hf => ⟨fun x => ?_, fun xs => ?_⟩⟩
  · refine e _ _ (.scalar x) _ rfl ?_ (fun _ => rfl)
    cases h : v.tran <;> simp_all [CRV.defaultSucc]
  · refine e _ _ (.array xs) _ rfl ?_ (fun _ => rfl)
    cases h : v.tran <;> simp_all [CRV.defaultSucc]
  · refine e _ _ (.scalar x) _ rfl ?_ (fun _ => rfl)
    cases h : v.tran <;> simp_all [CRV.defaultSucc]
  · refine e _ _ (.array xs) _ rfl ?_ (fun _ => rfl)
    cases h : v.tran <;> simp_all [CRV.defaultSucc]

/-! ### Sampled successors, constant transition -/

/-- The transition is a constant or not set. -/
def Spec.Flat : CTran → Prop
  | .none => True
  | .scalar _ => True
  | _ => False

theorem flat_succ {v : CRV} (h : Spec.Flat v.tran) (p : VArg ℝ) (n : ℤ) (r : ℕ → ℝ) :
    v.succVals p (.count n) r = v.evaluate false (.count n) r := by
  unfold CRV.succVals
  cases ht : v.tran <;> simp_all [Spec.Flat]

theorem evaluate_false (v : CRV) (n : ℤ) (r : ℕ → ℝ) (y : SA)
    (h : v.var.evaluate v.ufun n r = .ok y) : v.evaluate false (.count n) r = .ok y.toVArg := by
  simp only [CRV.evaluate]
  exact toVArg_ok h

/-- C81: with a constant transition, or none, sampled successors are spread evenly or
uniformly over the declared set, whatever the predecessor and whether or not
cumulative functions are set: `n` members of the set for `{n}`, values within the
limits for `{-n}` and `{0}`. -/
theorem C81_flat (fmt : ℝ → Str) (v : CRV) (s : FSet) (hs : v.var = FloatVar.make s) (b : PScale)
    (hb : evalPscale v.pscale = .ok b) (reverse : Bool) (g : ℝ → ℝ → ℝ)
    (hg : Spec.Conditional s v.tran reverse g) (hflat : Spec.Flat v.tran)
    (lo hi : ℝ) (hlo : v.var.lo = lo) (hhi : v.var.hi = hi) (hlt : lo < hi)
    (huf : Spec.Inverts v.ufun lo hi) (pred : CReq) (p : VArg ℝ) (hp : Spec.GivenAs pred p)
    (n : ℕ) (hn : 1 ≤ n) (r0 r1 : ℕ → ℝ) (hr : ∀ i, 0 ≤ r1 i ∧ r1 i < 1) :
    (∃ ys d, v.step fmt pred (.count n) reverse r0 r1 = .ok d ∧
      Spec.Stepped fmt v b g (.array ys) p d ∧ ys.length = n ∧ ∀ y ∈ ys, Spec.MemF s y) ∧
    (∃ ys d, v.step fmt pred (.count (-n)) reverse r0 r1 = .ok d ∧
      Spec.Stepped fmt v b g (.array ys) p d ∧ ys.length = n ∧ ∀ y ∈ ys, lo ≤ y ∧ y < hi) ∧
    (∃ y d, v.step fmt pred (.count 0) reverse r0 r1 = .ok d ∧
      Spec.Stepped fmt v b g (.scalar y) p d ∧ lo ≤ y ∧ y < hi) := by
  rw [hs] at hlo hhi
  obtain ⟨xs, h1, h2, h3⟩ := C09_evaluate_grid s lo hi hlo hhi hlt v.ufun huf n hn r1
  obtain ⟨g1, x, g2, g3⟩ := C09_evaluate_random s lo hi hlo hhi hlt v.ufun huf n r1 hr
  obtain ⟨ys, k1, k2, k3⟩ := g1 (by omega)
  rw [← hs] at h1 k1 g2
  have e : ∀ (m : ℤ) (y : SA), v.var.evaluate v.ufun m r1 = .ok y →
      ∃ d, v.step fmt pred (.count m) reverse r0 r1 = .ok d ∧
        Spec.Stepped fmt v b g y.toVArg p d := fun m y hy =>
    step_spec fmt v s hs b hb reverse g hg pred (.count m) (.count m) r0 r1 p _
      (asks_evaluate hp _ _) rfl (by rw [flat_succ hflat]; exact evaluate_false v m r1 y hy)
  obtain ⟨d1, a1, b1⟩ := e _ _ h1
  obtain ⟨d2, a2, b2⟩ := e _ _ k1
  obtain ⟨d3, a3, b3⟩ := e _ _ g2
  exact ⟨⟨xs, d1, a1, b1, h2, h3⟩, ⟨ys, d2, a2, b2, k2, k3⟩, ⟨x, d3, a3, b3, g3⟩⟩

/-- C81: with a constant transition a variable with an infinite limit has no sampled
successors. -/
theorem C81_flat_infinite_refused (fmt : ℝ → Str) (v : CRV) (hflat : Spec.Flat v.tran)
    (h : v.var.lo = ⊥ ∨ v.var.hi = ⊤) (pred : CReq) (p : VArg ℝ) (hp : Spec.GivenAs pred p) (n : ℤ)
    (reverse : Bool) (r0 r1 : ℕ → ℝ) :
    v.step fmt pred (.count n) reverse r0 r1 = .error .assertion := by
  have : v.succVals p (.count n) r1 = .error .assertion := by
    rw [flat_succ hflat]
    simp only [CRV.evaluate, C09_unbounded_raises v.var h v.ufun n r1, bind, Except.bind]
  simp [CRV.step, asks_evaluate hp, CRV.defaultSucc, this, bind, Except.bind]

/-! ### Sampled successors, transition functions -/

/-- `F x` is the cumulative function of the successor of `x` between possibly infinite
limits, and `G x` its inverse. -/
structure Spec.CondCDF (F : ℝ → EReal → ℝ) (G : ℝ → ℝ → ℝ) (lo hi : EReal) (x : ℝ) : Prop where
  mono : StrictMonoOn (F x) (Set.Icc lo hi)
  inner : ∀ p, F x lo < p → p < F x hi →
    lo < (G x p : EReal) ∧ (G x p : EReal) < hi ∧ F x (G x p) = p
  lower : lo ≠ ⊥ → (G x (F x lo) : EReal) = lo
  upper : hi ≠ ⊤ → (G x (F x hi) : EReal) = hi

/-- The transition is a function or a pair of functions. -/
def Spec.Functional : CTran → Prop
  | .fn _ => True
  | .pair _ _ => True
  | _ => False

theorem fn_succ {v : CRV} (h : Spec.Functional v.tran) (huf : v.ufun = none) (hle : v.var.lo < v.var.hi)
    (F : ℝ → EReal → ℝ) (G : ℝ → ℝ → ℝ) (htf : v.tfun = some (F, G)) (x : ℝ)
    (hF : Spec.CondCDF F G v.var.lo v.var.hi x) (n : ℤ) (r : ℕ → ℝ) :
    v.succVals (.scalar x) (.count n) r =
      .ok ((uniform (F x v.var.lo) (F x v.var.hi) n v.var.s0.excl v.var.s1.excl r).toVArg.map (G x)) := by
  have hlt := hF.mono ⟨le_refl _, hle.le⟩ ⟨hle.le, le_refl _⟩ hle
  have : v.ulim = id := by funext y; simp [CRV.ulim, huf]
  unfold CRV.succVals
  cases ht : v.tran <;> simp_all [Spec.Functional, hle.le, hlt.le]

theorem cond_point {F : ℝ → EReal → ℝ} {G : ℝ → ℝ → ℝ} {lo hi : EReal} {x : ℝ} (hle : lo < hi)
    (h : Spec.CondCDF F G lo hi x) (t : ℝ) (h0 : 0 ≤ t) (h1 : t ≤ 1) (hl : t = 0 → lo ≠ ⊥)
    (hu : t = 1 → hi ≠ ⊤) :
    let y := G x (F x lo + (F x hi - F x lo) * t)
    F x y = F x lo + (F x hi - F x lo) * t ∧ lo ≤ y ∧ y ≤ hi ∧ (0 < t → lo < y) ∧ (t < 1 → y < hi) := by
  have hlt := h.mono ⟨le_refl _, hle.le⟩ ⟨hle.le, le_refl _⟩ hle
  have hd : 0 < F x hi - F x lo := by linarith
  rcases h0.lt_or_eq with h0' | h0'
  · rcases h1.lt_or_eq with h1' | h1'
    · obtain ⟨a, b, c⟩ := h.inner (F x lo + (F x hi - F x lo) * t) (by nlinarith) (by nlinarith)
      exact ⟨c, a.le, b.le, fun _ => a, fun _ => b⟩
    · subst h1'
      have := h.upper (hu rfl)
      have e : F x lo + (F x hi - F x lo) * 1 = F x hi := by ring
      simp only [e, this]
      exact ⟨trivial, hle.le, le_refl _, fun _ => hle, fun h => absurd h (lt_irrefl _)⟩
  · subst h0'
    have := h.lower (hl rfl)
    have e : F x lo + (F x hi - F x lo) * 0 = F x lo := by ring
    simp only [e, this]
    exact ⟨trivial, le_refl _, hle.le, fun h => absurd h (lt_irrefl _), fun _ => hle⟩

theorem mem_of_elimits (s : FSet) (y : ℝ) (h0 : (FloatVar.make s).lo ≤ y) (h1 : y ≤ (FloatVar.make s).hi)
    (h2 : (FloatVar.make s).s0.excl = true → (FloatVar.make s).lo < y)
    (h3 : (FloatVar.make s).s1.excl = true → y < (FloatVar.make s).hi) : Spec.MemF s y := by
  rw [← C08_inside_float, FloatVar.inside]
  cases ha : (FloatVar.make s).s0.excl <;> cases hb : (FloatVar.make s).s1.excl <;> simp_all

/-- C81: with a transition function and conditional cumulative functions, `{n}` gives
`n` successors of the declared set — which may be unbounded — at equal steps of the
cumulative probability given the predecessor, with the transition's numbers. -/
theorem C81_quantiles (fmt : ℝ → Str) (v : CRV) (s : FSet) (hs : v.var = FloatVar.make s)
    (b : PScale) (hb : evalPscale v.pscale = .ok b) (reverse : Bool) (g : ℝ → ℝ → ℝ)
    (hg : Spec.Conditional s v.tran reverse g) (hfn : Spec.Functional v.tran) (huf : v.ufun = none)
    (F : ℝ → EReal → ℝ) (G : ℝ → ℝ → ℝ) (htf : v.tfun = some (F, G)) (hle : v.var.lo < v.var.hi)
    (x : ℝ) (hF : Spec.CondCDF F G v.var.lo v.var.hi x)
    (hl : v.var.lo = ⊥ → v.var.s0.excl = true) (hu : v.var.hi = ⊤ → v.var.s1.excl = true)
    (n : ℕ) (hn : 1 ≤ n) (r0 r1 : ℕ → ℝ) :
    ∃ ys d, v.step fmt (.scalar x) (.count n) reverse r0 r1 = .ok d ∧
      Spec.Stepped fmt v b g (.array ys) (.scalar x) d ∧ ys.length = n ∧ (∀ y ∈ ys, Spec.MemF s y) ∧
      ∀ i (h : i < ys.length), F x ys[i] = F x v.var.lo +
        (F x v.var.hi - F x v.var.lo) * Spec.fraction n i v.var.s0.excl v.var.s1.excl := by
  obtain ⟨ps, h1, h2, h3⟩ := C07_grid (F x v.var.lo) (F x v.var.hi) n hn v.var.s0.excl v.var.s1.excl r1
  have he := fn_succ hfn huf hle F G htf x hF n r1
  rw [h1] at he
  obtain ⟨d, hd, hc⟩ := step_spec fmt v s hs b hb reverse g hg (.scalar x) (.count n) (.count n) r0 r1
    (.scalar x) _ rfl rfl he
  have pt : ∀ i (h : i < n), _ := fun i h =>
    cond_point hle hF (Spec.fraction n i v.var.s0.excl v.var.s1.excl)
      (Spec.fraction_bounds n i h v.var.s0.excl v.var.s1.excl).1
      (Spec.fraction_bounds n i h v.var.s0.excl v.var.s1.excl).2.1
      (fun h0 hb => absurd ((Spec.fraction_bounds n i h v.var.s0.excl v.var.s1.excl).2.2.1 (hl hb))
        (by rw [h0]; exact lt_irrefl _))
      (fun h0 hb => absurd ((Spec.fraction_bounds n i h v.var.s0.excl v.var.s1.excl).2.2.2 (hu hb))
        (by rw [h0]; exact lt_irrefl _))
  refine ⟨ps.map (G x), d, hd, hc, by simpa using h2, ?_, ?_⟩
  · intro y hy
    obtain ⟨i, hi', rfl⟩ := List.getElem_of_mem hy
    have hi2 := hi'
    rw [List.length_map] at hi2
    obtain ⟨-, k1, k2, k3, k4⟩ := pt i (by omega)
    obtain ⟨-, -, k5, k6⟩ := Spec.fraction_bounds n i (by omega) v.var.s0.excl v.var.s1.excl
    rw [List.getElem_map, h3 i hi2]
    refine mem_of_elimits s _ (by rw [← hs]; exact k1) (by rw [← hs]; exact k2) ?_ ?_
    · rw [← hs]; exact fun h => k3 (k5 h)
    · rw [← hs]; exact fun h => k4 (k6 h)
  · intro i hi'
    have hi2 := hi'
    rw [List.length_map] at hi2
    rw [List.getElem_map, h3 i hi2]
    exact (pt i (by omega)).1

/-- Claim: sampled successors belong to the set, also with a transform of the values. -/
def C81_transform_claim : Prop :=
  ∀ (fmt : ℝ → Str) (v : CRV) (s : FSet) (lo hi : ℝ) (F : ℝ → EReal → ℝ) (G : ℝ → ℝ → ℝ) (x : ℝ)
    (n : ℕ) (r0 r1 : ℕ → ℝ), v.var = FloatVar.make s → v.var.lo = lo → v.var.hi = hi → lo < hi →
    Spec.Inverts v.ufun lo hi → Spec.Functional v.tran → v.tfun = some (F, G) →
    Spec.CondCDF F G v.var.lo v.var.hi x → 1 ≤ n →
    ∀ d, v.step fmt (.scalar x) (.count n) false r0 r1 = .ok d →
      ∃ ys k rest, d.vals = (v.name ++ ['\''], .array ys, k) :: rest ∧ ∀ y ∈ ys, Spec.MemF s y

/-- Uniform successors in [0, 1], with the values doubled for sampling. -/
noncomputable def doubledWalk : CRV :=
  { doubled 1 with
    tran := .fn fun p s => .ok (outerC s p fun _ _ => 1)
    tfun := some (fun _ y => y.toReal, fun _ p => p) }

theorem doubledWalk_cdf (x : ℝ) :
    Spec.CondCDF (fun _ y => y.toReal) (fun _ p => p) ((0 : ℝ) : EReal) ((1 : ℝ) : EReal) x := by
  refine ⟨?_, ?_, fun _ => by simp, fun _ => by simp⟩
  · intro a ha b hb hab
    have fin : ∀ c : EReal, c ∈ Set.Icc ((0 : ℝ) : EReal) ((1 : ℝ) : EReal) → ∃ r : ℝ, c = r := by
      intro c hc
      induction c with
      | bot => exact absurd hc.1 (by simp)
      | coe r => exact ⟨r, rfl⟩
      | top => exact absurd hc.2 (not_le.mpr (EReal.coe_lt_top 1))
    obtain ⟨a, rfl⟩ := fin a ha
    obtain ⟨b, rfl⟩ := fin b hb
    simpa using hab
  · intro p h0 h1
    simp only [EReal.toReal_coe] at h0 h1 ⊢
    exact ⟨by exact_mod_cast h0, by exact_mod_cast h1, trivial⟩

/-- The limits are transformed before the cumulative function is applied to them, the
values are not transformed back. -/
theorem C81_transform_claim_fails : ¬ C81_transform_claim := by
  intro h
  have hlo : doubledWalk.var.lo = (0 : ℝ) := doubled_lo 1
  have hhi : doubledWalk.var.hi = (1 : ℝ) := doubled_hi 1
  have hsucc : doubledWalk.succVals (.scalar 0) (.count (2 : ℕ)) (fun _ => 0) = .ok (.array [0, 2]) := by
    have h0 : doubledWalk.ulim ((0 : ℝ) : EReal) = ((0 : ℝ) : EReal) := by
      simp [CRV.ulim, doubledWalk, doubled]
    have h1 : doubledWalk.ulim ((1 : ℝ) : EReal) = ((2 : ℝ) : EReal) := by
      have a : ((1 : ℝ) : EReal) ≠ ⊥ := EReal.coe_ne_bot 1
      have b : ((1 : ℝ) : EReal) ≠ ⊤ := EReal.coe_ne_top 1
      simp only [CRV.ulim, doubledWalk, doubled, a, b, or_self, if_false, EReal.toReal_coe, mul_one]
    have hle : ((0 : ℝ) : EReal) ≤ ((2 : ℝ) : EReal) := by exact_mod_cast zero_le_two
    have e0 : doubledWalk.var.s0.excl = false := by
      have : ¬ ((1 : EReal) < 0) := not_lt.mpr zero_le_one
      simp [doubledWalk, doubled, FloatVar.make, FSet.toList, this]
    have e1 : doubledWalk.var.s1.excl = false := by
      have : ¬ ((1 : EReal) < 0) := not_lt.mpr zero_le_one
      simp [doubledWalk, doubled, FloatVar.make, FSet.toList, this]
    have ht : doubledWalk.tran = .fn fun p s => .ok (outerC s p fun _ _ => 1) := rfl
    have htf : doubledWalk.tfun = some (fun _ y => y.toReal, fun _ p => p) := rfl
    simp only [CRV.succVals, ht, htf, hlo, hhi, h0, h1, min_eq_left hle, max_eq_right hle,
      EReal.toReal_coe, e0, e1]
    norm_num [uniform, linspace, SA.toVArg, VArg.map, List.range_succ]
  obtain ⟨d, hd, hc⟩ := step_spec (fun _ => []) doubledWalk (.list ⟨(0 : ℝ), false⟩ ⟨(1 : ℝ), false⟩) rfl
    (.lin 1) (by simp [doubledWalk, doubled, evalPscale]) false (fun _ _ => 1)
    (by
      intro p s
      refine ⟨_, rfl, ?_, fun i j y x hy hx => outerC_get _ _ _ _ _ _ _ hy hx⟩
      rw [sizesOf_eq, sizesOf_eq]; rfl)
    (.scalar 0) (.count (2 : ℕ)) (.count (2 : ℕ)) (fun _ => 0) (fun _ => 0) (.scalar 0) _ rfl rfl hsucc
  obtain ⟨ys, k, rest, hv, hm⟩ := h (fun _ => []) doubledWalk (.list ⟨(0 : ℝ), false⟩ ⟨(1 : ℝ), false⟩) 0 1
    _ _ 0 2 (fun _ => 0) (fun _ => 0) rfl hlo hhi zero_lt_one (doubled_inverts 1) trivial rfl
    (by rw [hlo, hhi]; exact doubledWalk_cdf 0) (by norm_num) d hd
  rw [hc.vals] at hv
  simp only [List.cons.injEq, Prod.mk.injEq, VArg.array.injEq] at hv
  have := hm 2 (by rw [← hv.1.2.1]; simp)
  simp only [Spec.MemF, Spec.above, Spec.below, EReal.coe_le_coe_iff, zero_le_one, if_true] at this
  norm_num at this

/-- C81: `{-n}` gives `n` successors within the limits, the cumulative probability of
the i-th determined by the i-th draw alone. -/
theorem C81_draws (fmt : ℝ → Str) (v : CRV) (s : FSet) (hs : v.var = FloatVar.make s)
    (b : PScale) (hb : evalPscale v.pscale = .ok b) (reverse : Bool) (g : ℝ → ℝ → ℝ)
    (hg : Spec.Conditional s v.tran reverse g) (hfn : Spec.Functional v.tran) (huf : v.ufun = none)
    (F : ℝ → EReal → ℝ) (G : ℝ → ℝ → ℝ) (htf : v.tfun = some (F, G)) (hle : v.var.lo < v.var.hi)
    (x : ℝ) (hF : Spec.CondCDF F G v.var.lo v.var.hi x)
    (n : ℕ) (hn : 1 ≤ n) (r0 r1 : ℕ → ℝ) (hr : ∀ i, 0 < r1 i ∧ r1 i < 1) :
    ∃ ys d, v.step fmt (.scalar x) (.count (-n)) reverse r0 r1 = .ok d ∧
      Spec.Stepped fmt v b g (.array ys) (.scalar x) d ∧ ys.length = n ∧
      ∀ i (h : i < ys.length), v.var.lo < ys[i] ∧ ys[i] < v.var.hi ∧
        F x ys[i] = F x v.var.lo + (F x v.var.hi - F x v.var.lo) * r1 i := by
  have he := fn_succ hfn huf hle F G htf x hF (-(n : ℤ)) r1
  have h0 : ¬ (-(n : ℤ) = 0) := by omega
  have h1 : -(n : ℤ) < 0 := by omega
  simp only [uniform, if_neg h0, if_pos h1] at he
  obtain ⟨d, hd, hc⟩ := step_spec fmt v s hs b hb reverse g hg (.scalar x) (.count (-n)) (.count (-n))
    r0 r1 (.scalar x) _ rfl rfl he
  refine ⟨_, d, hd, hc, by simp, ?_⟩
  intro i hi'
  simp only [List.getElem_map, List.getElem_range]
  obtain ⟨k0, k1, k2, k3, k4⟩ := cond_point hle hF (r1 i) (hr i).1.le (hr i).2.le
    (fun h => absurd h (hr i).1.ne') (fun h => absurd h (hr i).2.ne)
  exact ⟨k3 (hr i).1, k4 (hr i).2, k0⟩

/-- The successor of a step to a single one. -/
def CDist.successor (d : CDist) : Option ℝ :=
  match d.vals with
  | [(_, .scalar y, _), _] => some y
  | _ => none

/-- Up to a single outcome, the outcomes up to `t`. -/
theorem volume_squeeze (S : Set ℝ) (t : ℝ) (h1 : t ≤ 1)
    (hS : ∀ u, 0 < u → u < 1 → (u ∈ S ↔ u ≤ t)) (hS' : ∀ u ∈ S, 0 ≤ u ∧ u < 1) :
    MeasureTheory.volume S = ENNReal.ofReal t := by
  apply le_antisymm
  · have : S ⊆ {0} ∪ Set.Ioc 0 t := by
      intro u hu
      obtain ⟨a, b⟩ := hS' u hu
      rcases a.lt_or_eq with a | a
      · exact Or.inr ⟨a, (hS u a b).mp hu⟩
      · exact Or.inl a.symm
    calc MeasureTheory.volume S ≤ MeasureTheory.volume ({0} ∪ Set.Ioc 0 t) := MeasureTheory.measure_mono this
      _ ≤ MeasureTheory.volume {(0 : ℝ)} + MeasureTheory.volume (Set.Ioc 0 t) :=
        MeasureTheory.measure_union_le _ _
      _ = ENNReal.ofReal t := by rw [Real.volume_singleton, Real.volume_Ioc]; simp
  · have : Set.Ioo 0 t ⊆ S := by
      intro u hu
      exact (hS u hu.1 (by linarith [hu.2])).mpr hu.2.le
    calc ENNReal.ofReal t = MeasureTheory.volume (Set.Ioo 0 t) := by rw [Real.volume_Ioo]; simp
      _ ≤ MeasureTheory.volume S := MeasureTheory.measure_mono this

/-- C81: the successor sampled by `{0}` follows the conditional distribution given the
predecessor, restricted to the limits: the probability of a successor of at most `y`
is the share of conditional cumulative probability below `y`. -/
theorem C81_law (fmt : ℝ → Str) (v : CRV) (s : FSet) (hs : v.var = FloatVar.make s)
    (b : PScale) (hb : evalPscale v.pscale = .ok b) (reverse : Bool) (g : ℝ → ℝ → ℝ)
    (hg : Spec.Conditional s v.tran reverse g) (hfn : Spec.Functional v.tran) (huf : v.ufun = none)
    (F : ℝ → EReal → ℝ) (G : ℝ → ℝ → ℝ) (htf : v.tfun = some (F, G)) (hle : v.var.lo < v.var.hi)
    (x : ℝ) (hF : Spec.CondCDF F G v.var.lo v.var.hi x) (r0 : ℕ → ℝ) (y : ℝ)
    (hy : v.var.lo ≤ y ∧ y ≤ v.var.hi) :
    MeasureTheory.volume {u : ℝ | (0 ≤ u ∧ u < 1) ∧
        ∃ d z, v.step fmt (.scalar x) (.count 0) reverse r0 (fun _ => u) = .ok d ∧
          d.successor = some z ∧ z ≤ y} =
      ENNReal.ofReal ((F x y - F x v.var.lo) / (F x v.var.hi - F x v.var.lo)) := by
  have l0 : v.var.lo ∈ Set.Icc v.var.lo v.var.hi := ⟨le_refl _, hle.le⟩
  have l1 : v.var.hi ∈ Set.Icc v.var.lo v.var.hi := ⟨hle.le, le_refl _⟩
  have hlt := hF.mono l0 l1 hle
  have hd : 0 < F x v.var.hi - F x v.var.lo := by linarith
  have hyh := hF.mono.monotoneOn hy l1 hy.2
  refine volume_squeeze _ _ ((div_le_one hd).mpr (by linarith)) ?_ (fun u hu => hu.1)
  intro u hu0 hu1
  have he := fn_succ hfn huf hle F G htf x hF 0 (fun _ => u)
  simp only [uniform, if_true] at he
  obtain ⟨d, hd1, hd2⟩ := step_spec fmt v s hs b hb reverse g hg (.scalar x) (.count 0) (.count 0)
    r0 (fun _ => u) (.scalar x) _ rfl rfl he
  obtain ⟨k0, k1, k2, -, -⟩ := cond_point hle hF u hu0.le hu1.le
    (fun h => absurd h hu0.ne') (fun h => absurd h hu1.ne)
  have hsucc : d.successor = some (G x (F x v.var.lo + (F x v.var.hi - F x v.var.lo) * u)) := by
    simp [CDist.successor, hd2.vals, SA.toVArg, VArg.map]
  have hcmp := hF.mono.le_iff_le ⟨k1, k2⟩ hy
  rw [k0, EReal.coe_le_coe_iff] at hcmp
  rw [le_div_iff₀ hd]
  constructor
  · rintro ⟨-, d', z, h1, h2, h3⟩
    rw [hd1] at h1
    cases h1
    rw [hsucc] at h2
    cases h2
    have := hcmp.mpr h3
    linarith
  · intro h
    exact ⟨⟨hu0.le, hu1⟩, d, _, hd1, hsucc, hcmp.mp (by linarith)⟩

/-! ### What is refused -/

/-- C81: with a transition function successors are not sampled without conditional
cumulative functions, nor for an array of predecessors. -/
theorem C81_sampling_refused (fmt : ℝ → Str) (v : CRV) (hfn : Spec.Functional v.tran) (pred : CReq)
    (p : VArg ℝ) (hp : Spec.GivenAs pred p) (h : v.tfun = none ∨ ∃ xs, p = .array xs) (n : ℤ)
    (reverse : Bool) (r0 r1 : ℕ → ℝ) :
    v.step fmt pred (.count n) reverse r0 r1 = .error .assertion := by
  have : v.succVals p (.count n) r1 = .error .assertion := by
    unfold CRV.succVals
    rcases h with h | ⟨xs, rfl⟩
    · cases ht : v.tran <;> simp_all [Spec.Functional]
    · cases ht : v.tran <;> cases htf : v.tfun <;> simp_all [Spec.Functional]
  simp [CRV.step, asks_evaluate hp, CRV.defaultSucc, this, bind, Except.bind]

/-- Claim: the successor `{q}` is the value of cumulative probability `q` given the
predecessor. -/
def C81_unit_claim : Prop :=
  ∀ (fmt : ℝ → Str) (v : CRV) (F : ℝ → EReal → ℝ) (G : ℝ → ℝ → ℝ) (x q : ℝ) (r0 r1 : ℕ → ℝ),
    Spec.Functional v.tran → v.tfun = some (F, G) → v.var.lo < v.var.hi →
    Spec.CondCDF F G v.var.lo v.var.hi x → F x v.var.lo < q → q < F x v.var.hi →
    ∃ d y, v.step fmt (.scalar x) (.unit q) false r0 r1 = .ok d ∧ d.successor = some y ∧ F x y = q

/-- C81: a set of a float is never accepted as successor of a continuous variable,
whatever the transition and the cumulative functions. -/
theorem C81_unit_refused (fmt : ℝ → Str) (v : CRV) (pred : CReq) (u : ℝ) (reverse : Bool)
    (r0 r1 : ℕ → ℝ) : Raises (v.step fmt pred (.unit u) reverse r0 r1) := by
  cases hp : v.evaluate true pred r0 with
  | error e => exact ⟨e, by simp [CRV.step, hp, bind, Except.bind]⟩
  | ok p =>
    have : ∃ e, v.succVals p (.unit u) r1 = .error e := by
      unfold CRV.succVals
      cases v.tran <;> cases v.tfun <;> cases p <;> exact ⟨_, rfl⟩
    obtain ⟨e, he⟩ := this
    exact ⟨e, by simp [CRV.step, hp, CRV.defaultSucc, he, bind, Except.bind]⟩

/-! ### A logistic walk on the whole line -/

/-- The logistic cumulative function centred at `x`, with its limits at infinity. -/
noncomputable def walkF (x : ℝ) (y : EReal) : ℝ :=
  if y = ⊥ then 0 else if y = ⊤ then 1 else 1 / (1 + Real.exp (x - y.toReal))

noncomputable def walkG (x p : ℝ) : ℝ := x + Real.log (p / (1 - p))

noncomputable def walkDensity (x y : ℝ) : ℝ := Real.exp (x - y) / (1 + Real.exp (x - y)) ^ 2

noncomputable def logwalk : CRV :=
  { name := ['x'], var := FloatVar.make (.tuple ⊥ ⊤), ufun := none, pscale := .none,
    prob := .scalar 1, pfun := none, tran := .fn fun p s => .ok (outerC s p fun y x => walkDensity x y),
    tfun := some (walkF, walkG), delta := none }

theorem walk_lo : logwalk.var.lo = ⊥ := by simp [logwalk, FloatVar.make, FSet.toList]
theorem walk_hi : logwalk.var.hi = ⊤ := by simp [logwalk, FloatVar.make, FSet.toList]
theorem walk_scale : evalPscale logwalk.pscale = .ok (.lin 1) := by simp [logwalk, evalPscale]

theorem walkF_coe (x y : ℝ) : walkF x y = 1 / (1 + Real.exp (x - y)) := by
  simp [walkF]

theorem walk_cdf (x : ℝ) : Spec.CondCDF walkF walkG logwalk.var.lo logwalk.var.hi x := by
  rw [walk_lo, walk_hi]
  have b0 : walkF x ⊥ = 0 := by simp [walkF]
  have b1 : walkF x ⊤ = 1 := by simp [walkF]
  refine ⟨?_, ?_, fun h => absurd rfl h, fun h => absurd rfl h⟩
  · intro a _ b _ hab
    induction a with
    | bot =>
      rw [b0]
      induction b with
      | bot => exact absurd hab (lt_irrefl _)
      | coe b => rw [walkF_coe]; positivity
      | top => rw [b1]; norm_num
    | coe a =>
      rw [walkF_coe]
      induction b with
      | bot => exact absurd hab (by simp)
      | coe b =>
        rw [walkF_coe]
        have : a < b := by exact_mod_cast hab
        have : Real.exp (x - b) < Real.exp (x - a) := Real.exp_lt_exp.mpr (by linarith)
        exact one_div_lt_one_div_of_lt (by positivity) (by linarith)
      | top =>
        rw [b1, div_lt_one (by positivity)]
        linarith [Real.exp_pos (x - a)]
    | top => exact absurd hab (by simp)
  · intro p h0 h1
    rw [b0] at h0
    rw [b1] at h1
    refine ⟨EReal.bot_lt_coe _, EReal.coe_lt_top _, ?_⟩
    rw [walkF_coe, walkG]
    have hq : 0 < 1 - p := by linarith
    have : x - (x + Real.log (p / (1 - p))) = Real.log ((1 - p) / p) := by
      rw [show (1 - p) / p = (p / (1 - p))⁻¹ by rw [inv_div], Real.log_inv]; ring
    rw [this, Real.exp_log (by positivity)]
    field_simp
    ring

theorem walk_conditional (reverse : Bool) :
    Spec.Conditional (.tuple ⊥ ⊤) logwalk.tran reverse walkDensity := by
  intro p s
  refine ⟨_, rfl, ?_, fun i j y x hy hx => outerC_get _ _ _ _ _ _ _ hy hx⟩
  rw [sizesOf_eq, sizesOf_eq]; rfl

theorem C81_unit_claim_fails : ¬ C81_unit_claim := by
  intro h
  obtain ⟨d, y, hd, -⟩ := h (fun _ => []) logwalk walkF walkG 0 (1 / 2) (fun _ => 0) (fun _ => 0) trivial
    rfl (by rw [walk_lo, walk_hi]; exact bot_lt_top) (walk_cdf 0) (by rw [walk_lo]; simp [walkF])
    (by rw [walk_hi]; norm_num [walkF])
  obtain ⟨e, he⟩ := C81_unit_refused (fun _ => []) logwalk (.scalar 0) (1 / 2) false (fun _ => 0) (fun _ => 0)
  rw [he] at hd
  cases hd

/-- Non-vacuity of `C81_quantiles`: three steps of the walk from 2. -/
example : ∃ ys d, logwalk.step (fun _ => []) (.scalar 2) (.count 3) false (fun _ => 0) (fun _ => 0) = .ok d ∧
    Spec.Stepped (fun _ => []) logwalk (.lin 1) walkDensity (.array ys) (.scalar 2) d ∧ ys.length = 3 := by
  obtain ⟨ys, d, h1, h2, h3, -⟩ := C81_quantiles (fun _ => []) logwalk (.tuple ⊥ ⊤) rfl (.lin 1) walk_scale
    false walkDensity (walk_conditional false) trivial rfl walkF walkG rfl
    (by rw [walk_lo, walk_hi]; exact bot_lt_top) 2 (walk_cdf 2)
    (fun _ => by simp [logwalk, FloatVar.make, FSet.toList])
    (fun _ => by simp [logwalk, FloatVar.make, FSet.toList]) 3 (by norm_num) (fun _ => 0) (fun _ => 0)
  exact ⟨ys, d, h1, h2, h3⟩

/-- Non-vacuity of `C81_law`: half of the steps of the walk go down. -/
example (x : ℝ) : MeasureTheory.volume {u : ℝ | (0 ≤ u ∧ u < 1) ∧
      ∃ d z, logwalk.step (fun _ => []) (.scalar x) (.count 0) false (fun _ => 0) (fun _ => u) = .ok d ∧
        d.successor = some z ∧ z ≤ x} = ENNReal.ofReal (1 / 2) := by
  rw [C81_law (fun _ => []) logwalk (.tuple ⊥ ⊤) rfl (.lin 1) walk_scale false walkDensity
    (walk_conditional false) trivial rfl walkF walkG rfl
    (by rw [walk_lo, walk_hi]; exact bot_lt_top) x (walk_cdf x) (fun _ => 0) x
    (by rw [walk_lo, walk_hi]; exact ⟨bot_le, le_top⟩), walk_lo, walk_hi, walkF_coe]
  congr 1
  norm_num [walkF]

/-- Non-vacuity of `C81_given`: two successors of three predecessors. -/
example : ∃ d, logwalk.step (fun _ => []) (.array [0, 1, 2]) (.array [3, 4]) false (fun _ => 0) (fun _ => 0)
      = .ok d ∧ d.prob.shape = [2, 3] ∧ d.prob.get [1, 2] = walkDensity 2 4 := by
  obtain ⟨d, h1, h2⟩ := C81_given (fun _ => []) logwalk (.tuple ⊥ ⊤) rfl (.lin 1) walk_scale
    false walkDensity (walk_conditional false) _ _ _ _ (.array [0, 1, 2]) (.array [3, 4])
    (fun _ => 0) (fun _ => 0)
  exact ⟨d, h1, h2.shape, h2.prob [1] [2] 4 2 rfl rfl⟩

/-- Non-vacuity of `C81_flat`: two values sampled after three others, in a bounded
variable with a transform and a constant transition. -/
example : ∃ (ys : List ℝ) (d : CDist), { doubled 1 with tran := .scalar (1 / 2) }.step (fun _ => []) (.array [0, 1, 2])
      (.count (2 : ℕ)) false (fun _ => 0) (fun _ => 0) = .ok d ∧ ys.length = 2 ∧
      d.prob.shape = [2, 3] ∧ d.prob.get [1, 2] = 0 := by
  have hmem : Spec.MemF (.list ⟨(0 : ℝ), false⟩ ⟨(1 : ℝ), false⟩) 2 → False := by
    intro h
    simp only [Spec.MemF, Spec.above, Spec.below, EReal.coe_le_coe_iff, zero_le_one, if_true] at h
    norm_num at h
  obtain ⟨⟨ys, d, h1, h2, h3, -⟩, -⟩ := C81_flat (fun _ => []) { doubled 1 with tran := .scalar (1 / 2) }
    (.list ⟨(0 : ℝ), false⟩ ⟨(1 : ℝ), false⟩) rfl (.lin 1) (by simp [doubled, evalPscale]) false
    (fun x y => @ite ℝ (Spec.MemF (.list ⟨(0 : ℝ), false⟩ ⟨(1 : ℝ), false⟩) x ∧
      Spec.MemF (.list ⟨(0 : ℝ), false⟩ ⟨(1 : ℝ), false⟩) y) (Classical.dec _) (1 / 2) 0)
    (fun x y => ⟨fun h => if_pos h, fun h => if_neg h⟩) trivial 0 1 (doubled_lo 1) (doubled_hi 1)
    zero_lt_one (doubled_inverts 1) _ _ (.array [0, 1, 2]) 2 (by norm_num) (fun _ => 0) (fun _ => 0)
    (by norm_num)
  refine ⟨ys, d, h1, h3, ?_, ?_⟩
  · rw [h2.shape]; simp [Spec.sizesOf, h3]
  · have := h2.prob [1] [2] (ys[1]'(by omega)) 2 (by simp [VArg.entry]) rfl
    rw [show ([1, 2] : List ℕ) = [1] ++ [2] from rfl, this]
    exact if_neg (fun h => hmem h.1)

end Probayes
