/-
Property C71: a stochastic dependence composed of others combines their
probabilities.
-/
import Verif.Model.Composite
import Verif.Props.PScalesProd
import Verif.Props.Dependence
import Verif.Props.ProbObj
import Verif.Lemmas.BroadcastN

namespace Probayes

variable {V : Type}

/-- Specification: the entries of a dictionary for the given names. -/
def Spec.own {W : Type} (names : List Str) (d : Dict Str W) : Dict Str W :=
  d.filter fun kv => kv.1 ∈ names

/-- Specification: each part evaluates, on its own variables, to the corresponding
array. -/
def Spec.Evals (E : SDVars V) (values : Dict Str V) (dims : Dict Str (Option ℕ)) :
    List (SDObj V) → List Arr → Prop :=
  List.Forall₂ fun a q =>
    a.evalProb E (Spec.own (a.keys E) values) (Spec.own (a.keys E) dims) = .ok q

/-- Specification: the product of the probabilities the parts give at a place. -/
noncomputable def Spec.combined (args : List (SDObj V)) (qs : List Arr) (i : List ℕ) : ℝ :=
  (List.zipWith (fun a q => Spec.value a.scale (q.bget i)) args qs).prod

/-- Specification: the arrays broadcast to shape `S`. -/
def Spec.Fill (qs : List Arr) (S : List ℕ) : Prop :=
  (∀ q ∈ qs, FitsR q.shape S) ∧ ∀ c < S.length, ∃ q ∈ qs, Covers q.shape S c

/-- Specification: several dependences, all of the same variables (`leafs`), each on
variables not among these. -/
structure Spec.Parallel (leafs : List ℕ) (args : List (SDObj V)) : Prop where
  several : 1 < args.length
  leafs_ne : leafs ≠ []
  shared : ∀ a ∈ args, a.dep.leafs = leafs
  roots : ∀ a ∈ args, ∃ rs, a.dep.roots = some rs ∧ rs ≠ [] ∧ ∀ r ∈ rs, r ∉ leafs

/-- Specification: several dependences, each on the variables the next one is of. -/
structure Spec.Series (args : List (SDObj V)) : Prop where
  several : 1 < args.length
  roots : ∀ a ∈ args, a.dep.roots ≠ none
  chain : Spec.InSeries (args.map SDObj.dep)

/-- C71 full claim: whatever the arrangement of the parts, a composed dependence
evaluates to the product of their probabilities. -/
def C71_claim : Prop :=
  ∀ (V : Type) (E : SDVars V) (args : List (SDObj V)) (o : SDObj V) (values : Dict Str V)
    (dims : Dict Str (Option ℕ)) (qs : List Arr) (S : List ℕ),
    (∀ u v, (E.info u).name = (E.info v).name → u = v) → args ≠ [] →
    sdCompose E args none none = .ok o → values.keys = o.keys E → dims.keys = o.keys E →
    Spec.Evals E values dims args qs → Spec.Fill qs S →
    ∃ r, o.evalProb E values dims = .ok r ∧ r.shape = S ∧
      ∀ i ∈ idx S, Spec.value o.scale (r.get i) = Spec.combined args qs i

/-! ### What the parts receive -/

theorem restrictTo_own {W : Type} (keys : List Str) (d : Dict Str W) (hn : d.keys.Nodup) :
    restrictTo keys d.keys d = .ok (Spec.own keys d) := by
  have key : ∀ l : List (Str × W), (∀ kv ∈ l, Dict.get? d kv.1 = some kv.2) →
      restrictTo keys (l.map Prod.fst) d = .ok (Spec.own keys l) := by
    intro l
    induction l with
    | nil => intro _; rfl
    | cons kv l ih =>
      intro h
      have hi := ih fun x hx => h x (by simp [hx])
      unfold restrictTo Spec.own at hi ⊢
      rw [List.map_cons, List.filter_cons, List.filter_cons]
      by_cases hk : kv.1 ∈ keys
      · simp only [hk, decide_true, if_true, List.mapM_cons, h kv (by simp), bind, Except.bind,
          pure, Except.pure]
        rw [hi]
      · simp only [hk, decide_false, Bool.false_eq_true, if_false]
        exact hi
  refine key d fun kv hkv => ?_
  exact Dict.get?_of_mem hn hkv

theorem partProb_own (E : SDVars V) {values : Dict Str V} {dims : Dict Str (Option ℕ)}
    (hn : dims.keys.Nodup) (hk : values.keys = dims.keys) (a : SDObj V) :
    partProb E dims values a =
      a.evalProb E (Spec.own (a.keys E) values) (Spec.own (a.keys E) dims) := by
  unfold partProb
  rw [restrictTo_own _ _ hn, ← hk, restrictTo_own _ _ (hk ▸ hn)]
  rfl

/-! ### The arrangement -/

theorem runLeafsRoots_ok : ∀ ds : List DepObj, (∀ d ∈ ds, d.roots ≠ none) →
    ds.mapM runLeafsRoots = .ok (ds.map fun d => (d.leafs, d.roots.getD [])) := by
  intro ds
  induction ds with
  | nil => intro _; rfl
  | cons c cs ih =>
    intro h
    obtain ⟨r, hr⟩ := Option.ne_none_iff_exists'.mp (h c (by simp))
    rw [List.mapM_cons, ih (fun e he => h e (by simp [he]))]
    simp [runLeafsRoots, hr, bind, Except.bind, pure, Except.pure]

theorem archKind_series {args : List (SDObj V)} (h : Spec.Series args) :
    ∃ lr, (args.map SDObj.dep).mapM runLeafsRoots = .ok lr ∧ archKind lr = some true := by
  refine ⟨_, runLeafsRoots_ok _ ?_, ?_⟩
  · intro d hd
    obtain ⟨a, ha, rfl⟩ := List.mem_map.mp hd
    exact h.roots a ha
  · unfold archKind
    rw [(isSerial_iff _).mpr h.chain]
    simp [h.several]

theorem parallelLoop_true (L : List ℕ) (hL : L ≠ []) : ∀ (lr : List (List ℕ × List ℕ)) (acc : List ℕ),
    (∀ p ∈ lr, p.1 = L ∧ p.2 ≠ []) → (parallelLoop lr L acc).1 = true := by
  intro lr
  induction lr with
  | nil => intro acc _; rfl
  | cons p lr ih =>
    intro acc h
    obtain ⟨l, r⟩ := p
    obtain ⟨h1, h2⟩ := h (l, r) (by simp)
    have he : L.isEmpty = false := by cases L <;> simp_all
    have hr : r.isEmpty = false := by cases r <;> simp_all
    simp only at h1
    simp only [parallelLoop, he, Bool.false_eq_true, if_false, hr, h1, ne_eq, not_true_eq_false,
      or_self]
    exact ih _ fun q hq => h q (by simp [hq])

theorem archKind_parallel {leafs : List ℕ} {args : List (SDObj V)} (h : Spec.Parallel leafs args) :
    ∃ lr, (args.map SDObj.dep).mapM runLeafsRoots = .ok lr ∧ archKind lr = some false := by
  refine ⟨_, runLeafsRoots_ok _ ?_, ?_⟩
  · intro d hd
    obtain ⟨a, ha, rfl⟩ := List.mem_map.mp hd
    obtain ⟨rs, hr, -⟩ := h.roots a ha
    rw [hr]; simp
  · rcases args with _ | ⟨a, _ | ⟨b, args⟩⟩
    · exact absurd h.several (by simp)
    · exact absurd h.several (by simp)
    obtain ⟨ra, ha1, ha2, ha3⟩ := h.roots a (by simp)
    have hser : isSerial (((a :: b :: args).map SDObj.dep).map
        fun d => (d.leafs, d.roots.getD [])) = false := by
      rw [Bool.eq_false_iff]
      intro hs
      have := (isSerial_iff _).mp hs 0 a.dep b.dep (by simp) (by simp)
      obtain ⟨r, rs, rfl⟩ := List.exists_cons_of_ne_nil ha2
      refine ha3 r (by simp) ?_
      rw [← h.shared b (by simp)]
      exact (this r).mp (by simp [ha1])
    unfold archKind
    rw [hser]
    have hp : ∀ p ∈ ((a :: b :: args).map SDObj.dep).map (fun d => (d.leafs, d.roots.getD [])),
        p.1 = leafs ∧ p.2 ≠ [] := by
      intro p hp
      rw [List.map_map] at hp
      obtain ⟨c, hc, rfl⟩ := List.mem_map.mp hp
      obtain ⟨rs, h1, h2, -⟩ := h.roots c hc
      exact ⟨h.shared c hc, by simp [h1, h2]⟩
    have hl : (parallelLoop (((a :: b :: args).map SDObj.dep).map
        fun d => (d.leafs, d.roots.getD [])) [] []).1 = true := by
      simp only [List.map_cons, parallelLoop, List.isEmpty_nil, if_true]
      rw [h.shared a (by simp)]
      exact parallelLoop_true leafs h.leafs_ne _ _ fun p hp' =>
        hp p (by simp only [List.map_cons]; exact List.mem_cons_of_mem _ hp')
    rw [hl]
    simp

/-- What an arranged composition comes to, whatever probability is set on it. -/
theorem sdCompose_arranged (E : SDVars V) {args : List (SDObj V)} {lr : List (List ℕ × List ℕ)}
    {ser : Bool} {fn : Option (SDFunc V)} {ps : Option PSpec} {o : SDObj V}
    (hl : (args.map SDObj.dep).mapM runLeafsRoots = .ok lr) (hk : archKind lr = some ser)
    (h : sdCompose E args fn ps = .ok o) :
    depOfDeps E.info true (args.map SDObj.dep) = .ok o.dep ∧
      o.prob = archProb E ser args.reverse ∧
      ∃ s b, fieldRefresh (sdScales E o.dep.nodes) = .ok s ∧
        fieldSetScale (sdScales E o.dep.nodes) s ps = .ok b ∧
        fieldSetScale (sdScales E o.dep.nodes) b none = .ok o.scale := by
  unfold sdCompose at h
  rcases hd : depOfDeps E.info true (args.map SDObj.dep) with e | dep
  · simp [hd, bind, Except.bind] at h
  rcases hs : fieldRefresh (sdScales E dep.nodes) with e | s
  · simp [hd, hl, hs, bind, Except.bind] at h
  have hs2 := C70_field _ _ hs
  simp only [hd, hl, hk, hs, bind, Except.bind, Option.map_some, sdSetProb, rfSetProb, hs2, pure,
    Except.pure] at h
  rcases hb : fieldSetScale (sdScales E dep.nodes) s ps with e | b
  · simp [hb] at h
  simp only [hb] at h
  rcases hc : fieldSetScale (sdScales E dep.nodes) b none with e | c
  · simp [hc] at h
  simp only [hc, Option.getD_some] at h
  cases h
  exact ⟨rfl, rfl, s, b, hs, hb, hc⟩

/-- An arranged composition without a scale set. -/
theorem sdCompose_own (E : SDVars V) {args : List (SDObj V)} {lr : List (List ℕ × List ℕ)}
    {ser : Bool} {dep : DepObj} {s : PScale}
    (hl : (args.map SDObj.dep).mapM runLeafsRoots = .ok lr) (hk : archKind lr = some ser)
    (hd : depOfDeps E.info true (args.map SDObj.dep) = .ok dep)
    (hs : fieldRefresh (sdScales E dep.nodes) = .ok s) :
    sdCompose E args none none = .ok ⟨dep, s, archProb E ser args.reverse⟩ := by
  have hs2 := C70_field _ _ hs
  unfold sdCompose
  simp only [hd, hl, hk, hs, bind, Except.bind, Option.map_some, sdSetProb, rfSetProb, hs2, pure,
    Except.pure, Option.getD_some]

theorem evalProb_self (E : SDVars V) {o : SDObj V} {values : Dict Str V}
    {dims : Dict Str (Option ℕ)} (hv : values.keys = o.keys E) :
    o.evalProb E values dims = o.prob values dims := by
  unfold SDObj.evalProb
  rw [if_pos]
  simp [hv]

theorem mapM_reverse_parts (E : SDVars V) {values : Dict Str V} {dims : Dict Str (Option ℕ)}
    (hn : dims.keys.Nodup) (hk : values.keys = dims.keys) {args : List (SDObj V)} {qs : List Arr}
    (h : Spec.Evals E values dims args qs) :
    args.mapM (partProb E dims values) = .ok qs := by
  unfold Spec.Evals at h
  induction h with
  | nil => rfl
  | cons hq _ ih =>
    rw [List.mapM_cons, partProb_own E hn hk, hq, ih]
    rfl

theorem keys_nodup (E : SDVars V) (hinj : ∀ u v, (E.info u).name = (E.info v).name → u = v)
    {args : List (SDObj V)} {o : SDObj V}
    (h : depOfDeps E.info true (args.map SDObj.dep) = .ok o.dep) : (o.keys E).Nodup := by
  have hnodes : o.dep.nodes = depNodes (args.map SDObj.dep) := by
    unfold depOfDeps depRefreshGiven depRefresh at h
    repeat' split at h
    all_goals first
      | cases h; done
      | (simp only [Except.ok.injEq] at h; rw [← h])
  unfold SDObj.keys
  rw [hnodes]
  refine (nodup_foldl_addNode _ _ (nodup_foldl_addNode _ _ List.nodup_nil)).map ?_
  intro u v huv
  exact hinj u v huv

theorem prod_zipWith_reverse {α β : Type} (f : α → β → ℝ) (as : List α) (bs : List β)
    (h : as.length = bs.length) :
    (List.zipWith f as.reverse bs.reverse).prod = (List.zipWith f as bs).prod := by
  rw [← List.reverse_zipWith h, List.prod_reverse]

theorem reverse_evals (E : SDVars V) {values : Dict Str V} {dims : Dict Str (Option ℕ)}
    {args : List (SDObj V)} {qs : List Arr} (h : Spec.Evals E values dims args qs) :
    Spec.Evals E values dims args.reverse qs.reverse :=
  List.forall₂_reverse_iff.mpr h

theorem parallel_eval (E : SDVars V) (hinj : ∀ u v, (E.info u).name = (E.info v).name → u = v)
    {leafs : List ℕ} {args : List (SDObj V)} {o : SDObj V} {fn : Option (SDFunc V)}
    {ps : Option PSpec} (hp : Spec.Parallel leafs args) (ho : sdCompose E args fn ps = .ok o)
    {values : Dict Str V} {dims : Dict Str (Option ℕ)} (hv : values.keys = o.keys E)
    (hd : dims.keys = o.keys E) {qs : List Arr} (hq : Spec.Evals E values dims args qs) :
    o.evalProb E values dims = prodRuleArr qs.reverse (args.reverse.map SDObj.scale) := by
  obtain ⟨lr, h1, h2⟩ := archKind_parallel hp
  obtain ⟨g1, g3, g2⟩ := sdCompose_arranged E h1 h2 ho
  have hn : dims.keys.Nodup := by rw [hd]; exact keys_nodup E hinj g1
  rw [evalProb_self E hv, g3]
  unfold archProb
  rw [mapM_reverse_parts E hn (hv.trans hd.symm) (reverse_evals E hq)]
  rfl

/-! ### Parts in parallel -/

/-- C71 for parts in parallel on linear scales: the composed dependence evaluates to
an array that, on the product of the scales of the parts, is the product of their
probabilities, each evaluated on its own variables; this holds whatever
probability was set on the composed dependence.  If the scale of the composed
dependence is that product, it therefore evaluates to the product of the
probabilities.  Missing: scales of shared variables counted once only
(`C71_scales_claim_fails`), other arrangements (`C71_series`, `C71_neither`), and
values that are all numbers (`C71_numbers_refused`). -/
theorem C71_parallel_partial (E : SDVars V)
    (hinj : ∀ u v, (E.info u).name = (E.info v).name → u = v)
    (leafs : List ℕ) (args : List (SDObj V)) (o : SDObj V) (fn : Option (SDFunc V))
    (ps : Option PSpec) (hp : Spec.Parallel leafs args) (ho : sdCompose E args fn ps = .ok o)
    (values : Dict Str V) (dims : Dict Str (Option ℕ)) (hv : values.keys = o.keys E)
    (hd : dims.keys = o.keys E) (qs : List Arr) (hq : Spec.Evals E values dims args qs)
    (S : List ℕ) (hS : Spec.Fill qs S)
    (hstab : ∀ a ∈ args, evalPscale a.scale.spec = .ok a.scale)
    (hlin : ∀ a ∈ args, a.scale.iscomplex = false) :
    ∃ r, o.evalProb E values dims = .ok r ∧ r.shape = S ∧
      (∀ i ∈ idx S, Spec.value (.lin (args.map fun a => Spec.factor a.scale).prod) (r.get i) =
        Spec.combined args qs i) ∧
      (o.scale = .lin (args.map fun a => Spec.factor a.scale).prod →
        ∀ i ∈ idx S, Spec.value o.scale (r.get i) = Spec.combined args qs i) := by
  rw [parallel_eval E hinj hp ho hv hd hq]
  have hlen : qs.reverse.length = (args.reverse.map SDObj.scale).length := by
    simp [hq.length_eq]
  have hne : qs.reverse ≠ [] := by
    intro h0
    have := hp.several
    rw [hq.length_eq] at this
    rw [List.reverse_eq_nil_iff.mp h0] at this
    simp at this
  have hE : Spec.Evaluates ((args.reverse.map SDObj.scale).map PScale.spec)
      (args.reverse.map SDObj.scale) := by
    unfold Spec.Evaluates
    rw [List.forall₂_map_left_iff, List.forall₂_same]
    intro s hs
    obtain ⟨a, ha, rfl⟩ := List.mem_map.mp hs
    exact hstab a (by simpa using ha)
  have hl : ∀ s ∈ args.reverse.map SDObj.scale, s.iscomplex = false := by
    intro s hs
    obtain ⟨a, ha, rfl⟩ := List.mem_map.mp hs
    exact hlin a (by simpa using ha)
  have hsne : args.reverse.map SDObj.scale ≠ [] := by
    intro h0; rw [h0] at hlen; exact hne (List.length_eq_zero_iff.mp hlen)
  have hprod : prodPscale ((args.reverse.map SDObj.scale).map PScale.spec) none =
      .ok (some (.lin ((args.reverse.map SDObj.scale).map Spec.factor).prod)) := by
    have hemp : (args.reverse.map SDObj.scale).isEmpty = false := by simpa using hsne
    have hany : ((args.reverse.map SDObj.scale).map PScale.spec).any PSpec.iscomplex = false := by
      simp only [List.any_eq_false]; rintro x hx
      obtain ⟨s, hs, rfl⟩ := List.mem_map.mp hx
      simp [spec_iscomplex, hl s hs]
    set ss := args.reverse.map SDObj.scale
    simp [prodPscale, hemp, hany, prodPscaleLin_eq _ ss hE, bind, Except.bind, pure, Except.pure]
  obtain ⟨r, r1, r2, r3⟩ := prodRuleArr_ok (S := S) hne hlen
    (fun q hq' => hS.1 q (by simpa using hq'))
    (fun c hc => by obtain ⟨q, h1, h2⟩ := hS.2 c hc; exact ⟨q, by simpa using h1, h2⟩) hprod
  have hfac : ((args.reverse.map SDObj.scale).map Spec.factor).prod =
      (args.map fun a => Spec.factor a.scale).prod := by
    rw [List.map_map, List.map_reverse, List.prod_reverse]; rfl
  have main : ∀ i ∈ idx S, Spec.value (.lin (args.map fun a => Spec.factor a.scale).prod) (r.get i) =
      Spec.combined args qs i := by
    intro i hi
    obtain ⟨y, s, h1, h2, h3⟩ := C05_linear_partial (qs.reverse.map (Arr.bget · i))
      (args.reverse.map SDObj.scale) (by simpa using hne) (by simpa using hlen) hE hl
    rw [r3 i hi] at h1
    simp only [Except.ok.injEq, Prod.mk.injEq] at h1
    obtain ⟨rfl, h1⟩ := h1
    rcases s with c | ⟨re, im⟩
    · simp only [PScale.spec, PSpec.flt.injEq] at h1
      rw [← hfac, h1, h3]
      rw [List.zipWith_map_left, List.zipWith_map_right]
      exact prod_zipWith_reverse _ args qs hq.length_eq
    · simp [PScale.iscomplex] at h2
  exact ⟨r, r1, r2, main, fun h i hi => by rw [h]; exact main i hi⟩

/-- C71 for parts in parallel when some scale is logarithmic: as on linear scales,
provided the scale factors of the parts multiply to one and probabilities on linear
scales do not reach the smallest number whose logarithm is taken; the array is then
on the product of the scales of the parts. -/
theorem C71_parallel_log_partial (E : SDVars V)
    (hinj : ∀ u v, (E.info u).name = (E.info v).name → u = v)
    (leafs : List ℕ) (args : List (SDObj V)) (o : SDObj V) (fn : Option (SDFunc V))
    (ps : Option PSpec) (hp : Spec.Parallel leafs args) (ho : sdCompose E args fn ps = .ok o)
    (values : Dict Str V) (dims : Dict Str (Option ℕ)) (hv : values.keys = o.keys E)
    (hd : dims.keys = o.keys E) (qs : List Arr) (hq : Spec.Evals E values dims args qs)
    (S : List ℕ) (hS : Spec.Fill qs S)
    (hstab : ∀ a ∈ args, evalPscale a.scale.spec = .ok a.scale)
    (hval : ∀ a ∈ args, Spec.Valid a.scale) (hlog : ∃ a ∈ args, a.scale.iscomplex = true)
    (hone : (args.map fun a => Spec.factor a.scale).prod = 1)
    (hload : ∀ i ∈ idx S, Spec.Loggable (qs.map (Arr.bget · i)) (args.map SDObj.scale)) :
    ∃ r, o.evalProb E values dims = .ok r ∧ r.shape = S ∧
      ∀ i ∈ idx S, Spec.value (.log 0 0) (r.get i) = Spec.combined args qs i := by
  rw [parallel_eval E hinj hp ho hv hd hq]
  have hlen : qs.reverse.length = (args.reverse.map SDObj.scale).length := by
    simp [hq.length_eq]
  have hne : qs.reverse ≠ [] := by
    intro h0
    have := hp.several
    rw [hq.length_eq] at this
    rw [List.reverse_eq_nil_iff.mp h0] at this
    simp at this
  have hE : Spec.Evaluates ((args.reverse.map SDObj.scale).map PScale.spec)
      (args.reverse.map SDObj.scale) := by
    unfold Spec.Evaluates
    rw [List.forall₂_map_left_iff, List.forall₂_same]
    intro s hs
    obtain ⟨a, ha, rfl⟩ := List.mem_map.mp hs
    exact hstab a (by simpa using ha)
  have hvs : ∀ s ∈ args.reverse.map SDObj.scale, Spec.Valid s := by
    intro s hs
    obtain ⟨a, ha, rfl⟩ := List.mem_map.mp hs
    exact hval a (by simpa using ha)
  have hlogs : ∃ s ∈ args.reverse.map SDObj.scale, s.iscomplex = true := by
    obtain ⟨a, ha, h⟩ := hlog
    exact ⟨_, List.mem_map_of_mem (by simpa using ha), h⟩
  have hones : ((args.reverse.map SDObj.scale).map Spec.factor).prod = 1 := by
    rw [List.map_map, List.map_reverse, List.prod_reverse]; exact hone
  have hsum : ((args.reverse.map SDObj.scale).map logpOffs).sum = 0 := by
    rw [← Real.exp_eq_one_iff, exp_sum_logpOffs _ hvs, hones]
  have hsne : args.reverse.map SDObj.scale ≠ [] := by
    intro h0; rw [h0] at hlen; exact hne (List.length_eq_zero_iff.mp hlen)
  have hprod : prodPscale ((args.reverse.map SDObj.scale).map PScale.spec) none =
      .ok (some complexZero) := by
    have hemp : (args.reverse.map SDObj.scale).isEmpty = false := by simpa using hsne
    have hany : ((args.reverse.map SDObj.scale).map PScale.spec).any PSpec.iscomplex = true := by
      obtain ⟨s, hs, hc⟩ := hlogs
      rw [List.any_eq_true]
      exact ⟨s.spec, List.mem_map_of_mem hs, by rw [spec_iscomplex, hc]⟩
    set ss := args.reverse.map SDObj.scale
    simp [prodPscale, hemp, hany, prodPscaleLog_eq _ ss hE, bind, Except.bind, pure, Except.pure,
      hsum, encodeOffs, npz_pos]
  obtain ⟨r, r1, r2, r3⟩ := prodRuleArr_ok (S := S) hne hlen
    (fun q hq' => hS.1 q (by simpa using hq'))
    (fun c hc => by obtain ⟨q, h1, h2⟩ := hS.2 c hc; exact ⟨q, by simpa using h1, h2⟩) hprod
  refine ⟨r, r1, r2, ?_⟩
  intro i hi
  obtain ⟨y, s, h1, h2, h3⟩ := C05_log_partial (qs.reverse.map (Arr.bget · i))
    (args.reverse.map SDObj.scale) (by simpa using hne) (by simpa using hlen) hE hvs
    (by
      have := List.forall₂_reverse_iff.mpr (hload i hi)
      unfold Spec.Loggable
      rwa [List.map_reverse, List.map_reverse]) hlogs hones
  rw [r3 i hi] at h1
  simp only [Except.ok.injEq, Prod.mk.injEq] at h1
  obtain ⟨rfl, h1⟩ := h1
  rcases s with c | ⟨re, im⟩
  · simp [PScale.iscomplex] at h2
  · simp only [complexZero, PScale.spec, PSpec.cplx.injEq] at h1
    rw [← h1.1, ← h1.2] at h3
    rw [h3, List.zipWith_map_left, List.zipWith_map_right]
    exact prod_zipWith_reverse _ args qs hq.length_eq

/-! ### Other arrangements -/

/-- C71: parts in series do not combine; the composed dependence evaluates to the
probability of the first part alone, whatever was set on it. -/
theorem C71_series (E : SDVars V) (hinj : ∀ u v, (E.info u).name = (E.info v).name → u = v)
    (a : SDObj V) (args : List (SDObj V)) (o : SDObj V) (fn : Option (SDFunc V))
    (ps : Option PSpec) (hs : Spec.Series (a :: args)) (ho : sdCompose E (a :: args) fn ps = .ok o)
    (values : Dict Str V) (dims : Dict Str (Option ℕ)) (hv : values.keys = o.keys E)
    (hd : dims.keys = o.keys E) (q : Arr) (qs : List Arr)
    (hq : Spec.Evals E values dims (a :: args) (q :: qs)) :
    o.evalProb E values dims = .ok q := by
  obtain ⟨lr, h1, h2⟩ := archKind_series hs
  obtain ⟨g1, g3, g2⟩ := sdCompose_arranged E h1 h2 ho
  have hn : dims.keys.Nodup := by rw [hd]; exact keys_nodup E hinj g1
  rw [evalProb_self E hv, g3]
  unfold archProb
  rw [mapM_reverse_parts E hn (hv.trans hd.symm) (reverse_evals E hq)]
  simp [bind, Except.bind, pure, Except.pure]

/-- C71: a probability set on a dependence composed of parts in parallel or in series
is ignored, and so is a scale set, unless the product of the scales of the variables
is zero (logarithmic without offset). -/
theorem C71_set_ignored (E : SDVars V) (args : List (SDObj V)) (o : SDObj V)
    (fn : Option (SDFunc V)) (ps : Option PSpec)
    (hp : Spec.Series args ∨ ∃ leafs, Spec.Parallel leafs args)
    (ho : sdCompose E args fn ps = .ok o) :
    ∃ o', sdCompose E args none none = .ok o' ∧ o'.dep = o.dep ∧ o'.prob = o.prob ∧
      (ps = none → o' = o) ∧
      ∀ p, prodPscale ((o.dep.nodes.map E.scale).map PScale.spec) none = .ok (some p) →
        Spec.Stated p.spec → o' = o := by
  have hk : ∃ lr ser, (args.map SDObj.dep).mapM runLeafsRoots = .ok lr ∧
      archKind lr = some ser := by
    rcases hp with h | ⟨leafs, h⟩
    · obtain ⟨lr, h1, h2⟩ := archKind_series h; exact ⟨lr, _, h1, h2⟩
    · obtain ⟨lr, h1, h2⟩ := archKind_parallel h; exact ⟨lr, _, h1, h2⟩
  obtain ⟨lr, ser, h1, h2⟩ := hk
  obtain ⟨g1, g2, s, b, g3, g4, g5⟩ := sdCompose_arranged E h1 h2 ho
  refine ⟨_, sdCompose_own E h1 h2 g1 g3, rfl, g2.symm, ?_, ?_⟩
  · rintro rfl
    have hs2 := C70_field _ _ g3
    rw [hs2] at g4
    cases g4
    rw [hs2] at g5
    cases g5
    rw [← g2]
  · intro p hp1 hp2
    rw [C70_field_partial (sdScales E o.dep.nodes) s b p hp1 hp2 g3] at g5
    cases g5
    rw [← g2]

theorem compose_free (E : SDVars V) (args : List (SDObj V)) (o : SDObj V) (fn : Option (SDFunc V))
    (ps : Option PSpec)
    (key : ∀ lr, (args.map SDObj.dep).mapM runLeafsRoots = .ok lr → archKind lr = none)
    (ho : sdCompose E args fn ps = .ok o) :
    o.prob = fn.getD (sdIndep E o.dep.nodes) ∧
      ∀ args', args'.map SDObj.dep = args.map SDObj.dep → sdCompose E args' fn ps = .ok o := by
  unfold sdCompose at ho
  rcases hd : depOfDeps E.info true (args.map SDObj.dep) with e | dep
  · simp [hd, bind, Except.bind] at ho
  rcases hlr : (args.map SDObj.dep).mapM runLeafsRoots with e | lr
  · simp [hd, hlr, bind, Except.bind] at ho
  have ho' := ho
  simp only [hd, hlr, key lr hlr, bind, Except.bind, Option.map_none, sdSetProb, rfSetProb, pure,
    Except.pure] at ho
  rcases hs1 : fieldRefresh (sdScales E dep.nodes) with e | s
  · simp [hs1] at ho
  simp only [hs1, C70_field _ _ hs1] at ho
  rcases hb : fieldSetScale (sdScales E dep.nodes) s ps with e | b
  · simp [hb] at ho
  simp only [hb] at ho
  constructor
  · cases ho; rfl
  · intro args' ha
    unfold sdCompose
    simp only [ha, hd, hlr, bind, Except.bind, key lr hlr, Option.map_none] at ho' ⊢
    exact ho'

/-- C71: parts neither in series nor in parallel: a probability set on the composed
dependence is used; without one the variables are taken as independent, whatever
the probabilities of the parts. -/
theorem C71_neither (E : SDVars V) (args : List (SDObj V)) (o : SDObj V) (fn : Option (SDFunc V))
    (ps : Option PSpec) (hs : ¬ Spec.InSeries (args.map SDObj.dep))
    (hl : ∀ a ∈ args, a.dep.leafs ≠ []) (hp : ∀ l, ¬ ∀ a ∈ args, a.dep.leafs = l)
    (ho : sdCompose E args fn ps = .ok o) :
    o.prob = fn.getD (sdIndep E o.dep.nodes) ∧
      ∀ args', args'.map SDObj.dep = args.map SDObj.dep → sdCompose E args' fn ps = .ok o := by
  have key : ∀ lr, (args.map SDObj.dep).mapM runLeafsRoots = .ok lr → archKind lr = none := by
    intro lr hlr
    obtain ⟨rfl, -⟩ := mapM_runLeafsRoots _ _ hlr
    unfold archKind
    have hser : isSerial ((args.map SDObj.dep).map fun d => (d.leafs, d.roots.getD [])) = false := by
      rw [Bool.eq_false_iff]
      intro h
      exact hs ((isSerial_iff _).mp h)
    have hpar : (parallelLoop ((args.map SDObj.dep).map fun d => (d.leafs, d.roots.getD [])) [] []).1
        = false := by
      rw [Bool.eq_false_iff]
      intro h
      rcases args with _ | ⟨a, args⟩
      · exact hp [] (by simp)
      simp only [List.map_cons, parallelLoop, List.isEmpty_nil, if_true] at h
      have := (parallelLoop_spec _ _ _ (hl a (by simp)) h).1
      refine hp a.dep.leafs fun b hb => ?_
      rcases List.mem_cons.mp hb with rfl | hb
      · rfl
      · exact this (b.dep.leafs, b.dep.roots.getD []) (by
          simp only [List.map_map]
          exact List.mem_map.mpr ⟨b, hb, rfl⟩)
    simp only [hser, hpar, Bool.and_false, Bool.false_eq_true, if_false]
  exact compose_free E args o fn ps key ho

/-- C71: a dependence made from a single other takes over neither its probability nor
its scale: what is set on it is used, and without it the variables are taken as
independent. -/
theorem C71_alone (E : SDVars V) (a o : SDObj V) (fn : Option (SDFunc V)) (ps : Option PSpec)
    (ho : sdCompose E [a] fn ps = .ok o) :
    o.prob = fn.getD (sdIndep E o.dep.nodes) ∧
      ∀ a' : SDObj V, a'.dep = a.dep → sdCompose E [a'] fn ps = .ok o := by
  have key : ∀ lr, ([a].map SDObj.dep).mapM runLeafsRoots = .ok lr → archKind lr = none := by
    intro lr hlr
    obtain ⟨rfl, -⟩ := mapM_runLeafsRoots _ _ hlr
    simp [archKind]
  obtain ⟨h1, h2⟩ := compose_free E [a] o fn ps key ho
  exact ⟨h1, fun a' ha => h2 [a'] (by simp [ha])⟩

/-- C71: composing with a part that depends on nothing is refused. -/
theorem C71_rootless_refused (E : SDVars V) (args : List (SDObj V)) (fn : Option (SDFunc V))
    (ps : Option PSpec) (h : ∃ a ∈ args, a.dep.roots = none) :
    Raises (sdCompose E args fn ps) := by
  obtain ⟨a, ha, hr⟩ := h
  have hm : ∃ e, (args.map SDObj.dep).mapM runLeafsRoots = .error e := by
    rcases hlr : (args.map SDObj.dep).mapM runLeafsRoots with e | lr
    · exact ⟨e, rfl⟩
    · have := (mapM_runLeafsRoots _ _ hlr).2 a.dep (List.mem_map_of_mem ha)
      rw [hr] at this; simp at this
  obtain ⟨e, he⟩ := hm
  refine ⟨e, ?_⟩
  unfold sdCompose depOfDeps
  simp [he, bind, Except.bind]

/-! ### Numbers -/

/-- C71: a dependence composed of parts in series or in parallel cannot be evaluated
with a number for every variable: the parts receive no values. -/
theorem C71_numbers_refused (E : SDVars Laid) (args : List (SDObj Laid)) (o : SDObj Laid)
    (fn : Option (SDFunc Laid)) (ps : Option PSpec)
    (hp : Spec.Series args ∨ ∃ leafs, Spec.Parallel leafs args)
    (hne : ∀ a ∈ args, a.dep.nodes ≠ [])
    (ho : sdCompose E args fn ps = .ok o) (vs : List Drawn) (values : Dict Str Req)
    (hall : ∀ v ∈ vs, v.name ∈ values.keys) (hnum : ∀ kq ∈ values, ∃ x, kq.2 = .scalar x) :
    Raises (sdEvalCall E o vs values) := by
  have hk : ∃ lr ser, (args.map SDObj.dep).mapM runLeafsRoots = .ok lr ∧
      archKind lr = some ser ∧ args ≠ [] := by
    rcases hp with h | ⟨leafs, h⟩
    · obtain ⟨lr, h1, h2⟩ := archKind_series h
      exact ⟨lr, _, h1, h2, by rintro rfl; exact absurd h.several (by simp)⟩
    · obtain ⟨lr, h1, h2⟩ := archKind_parallel h
      exact ⟨lr, _, h1, h2, by rintro rfl; exact absurd h.several (by simp)⟩
  obtain ⟨lr, ser, h1, h2, h3⟩ := hk
  obtain ⟨g1, g3, g2⟩ := sdCompose_arranged E h1 h2 ho
  unfold sdEvalCall
  rcases hpar : rfParse vs values with e | w
  · exact ⟨e, by simp [bind, Except.bind]⟩
  have hw : w = values := by
    unfold rfParse at hpar
    dsimp only at hpar
    split at hpar
    · simp only [Except.ok.injEq] at hpar
      rw [← hpar]
      have : (List.filter (fun k => decide (k ∉ values.keys)) (List.map Drawn.name vs)) = [] := by
        rw [List.filter_eq_nil_iff]
        intro k hk
        obtain ⟨v, hv, rfl⟩ := List.mem_map.mp hk
        simp [hall v hv]
      rw [this]; simp
    · cases hpar
  subst hw
  have hev : ∃ vals, rfEvaluate vs w = .ok (vals, []) := by
    have : ∃ vals, (w.mapM fun kq => kq.2.scalar?.map fun x => (kq.1, (⟨.scalar x, []⟩ : Laid))) =
        some vals := by
      clear hpar hall
      induction w with
      | nil => exact ⟨[], rfl⟩
      | cons kq w ih =>
        obtain ⟨vals, hv⟩ := ih fun x hx => hnum x (by simp [hx])
        obtain ⟨x, hx⟩ := hnum kq (by simp)
        refine ⟨(kq.1, ⟨.scalar x, []⟩) :: vals, ?_⟩
        rw [List.mapM_cons, hv]
        simp [hx, Req.scalar?]
    obtain ⟨vals, hv⟩ := this
    exact ⟨vals, by unfold rfEvaluate; rw [hv]⟩
  obtain ⟨vals, hev⟩ := hev
  simp only [hev, bind, Except.bind]
  unfold SDObj.evalProb
  split
  · rw [g3]
    unfold archProb
    obtain ⟨b, bs, hb⟩ := List.exists_cons_of_ne_nil (by simpa using h3 : args.reverse ≠ [])
    have hbn : b.dep.nodes ≠ [] := hne b (by
      have : b ∈ args.reverse := by rw [hb]; simp
      simpa using this)
    have hpb : partProb E [] vals b = .error .assertion := by
      unfold partProb restrictTo
      obtain ⟨n, ns, hn⟩ := List.exists_cons_of_ne_nil hbn
      simp [Dict.keys, bind, Except.bind, pure, Except.pure, SDObj.evalProb, SDObj.keys, hn]
    rw [hb]
    exact ⟨.assertion, by simp [List.mapM_cons, hpb, bind, Except.bind]⟩
  · exact ⟨_, rfl⟩

/-! ### Failures of the full claim -/

/-- Three variables `x`, `xx`, `xxx` whose own probabilities are 1, the first one on
scale `c`. -/
noncomputable def toyVars (c : ℝ) : SDVars Unit where
  info v := ⟨List.replicate (v + 1) 'x', true⟩
  scale v := if v = 0 then .lin c else .lin 1
  prob _ _ := .ok ⟨[], fun _ => 1⟩

theorem toyVars_inj (c : ℝ) : ∀ u v, ((toyVars c).info u).name = ((toyVars c).info v).name → u = v := by
  intro u v h
  simpa [toyVars] using congrArg List.length h

/-- A dependence of variable `u` on variable `v` with constant probability `p` on
scale `s`. -/
def toyDep (u v : ℕ) (p : ℝ) (s : PScale) : SDObj Unit :=
  ⟨⟨[u, v], [(v, u)], [u], [], some [v], some [v]⟩, s, fun _ _ => .ok ⟨[], fun _ => p⟩⟩

/-- The dependences are those made of two variables. -/
example (p c : ℝ) (s : PScale) (u v : ℕ) (h : u ≠ v) :
    depOfFields (toyVars c).info true [[u], [v]] = .ok (toyDep u v p s).dep := by
  simp [depOfFields, depRefreshGiven, depPreds, addNode, toyDep, h.symm]

theorem toyScale (c : ℝ) (hc : c ≠ 0) (l : List ℕ) (hl : l = [0, 1, 2] ∨ l = [0, 2, 1] ∨
    l = [0, 1] ∨ l = [0, 2]) :
    fieldRefresh (sdScales (toyVars c) l) = .ok (.lin c) := by
  by_cases h1 : c = 1
  · subst h1
    rcases hl with rfl | rfl | rfl | rfl <;>
    simp [fieldRefresh, sdScales, toyVars, prodPscale, prodPscaleLin, PSpec.iscomplex, PScale.spec,
      evalPscale, probCoef, bind, Except.bind, pure, Except.pure]
  · rcases hl with rfl | rfl | rfl | rfl <;>
    simp [fieldRefresh, sdScales, toyVars, prodPscale, prodPscaleLin, PSpec.iscomplex, PScale.spec,
      evalPscale, probCoef, bind, Except.bind, pure, Except.pure, hc, h1]

/-- Values for the three variables. -/
def toyValues (l : List ℕ) : Dict Str Unit := l.map fun v => (List.replicate (v + 1) 'x', ())

/-- None of them has an axis. -/
def toyDims (l : List ℕ) : Dict Str (Option ℕ) := l.map fun v => (List.replicate (v + 1) 'x', none)

theorem toy_evals (c : ℝ) (l : List ℕ) (hl : l = [0, 1, 2] ∨ l = [0, 2, 1]) (u v : ℕ) (p : ℝ)
    (s : PScale) (hu : u ∈ [0, 1, 2]) (hv : v ∈ [0, 1, 2]) :
    (toyDep u v p s).evalProb (toyVars c)
      (Spec.own ((toyDep u v p s).keys (toyVars c)) (toyValues l))
      (Spec.own ((toyDep u v p s).keys (toyVars c)) (toyDims l)) = .ok ⟨[], fun _ => p⟩ := by
  unfold SDObj.evalProb
  rw [if_pos]
  · rfl
  · have : ∀ w ∈ [0, 1, 2], w ∈ l := by rcases hl with rfl | rfl <;> decide
    have h1 := this u hu
    have h2 := this v hv
    simp only [Bool.and_eq_true, List.all_eq_true, decide_eq_true_eq]
    constructor
    · intro k hk
      simp only [Dict.keys, Spec.own, List.mem_map, List.mem_filter, decide_eq_true_eq] at hk
      obtain ⟨kv, ⟨-, h⟩, rfl⟩ := hk
      exact h
    · intro k hk
      have hk' := hk
      simp only [SDObj.keys, toyDep, toyVars, List.map_cons, List.map_nil, List.mem_cons,
        List.not_mem_nil, or_false] at hk
      simp only [Dict.keys, Spec.own, List.mem_map, List.mem_filter, decide_eq_true_eq]
      rcases hk with rfl | rfl
      · exact ⟨(_, ()), ⟨List.mem_map.mpr ⟨u, h1, rfl⟩, hk'⟩, rfl⟩
      · exact ⟨(_, ()), ⟨List.mem_map.mpr ⟨v, h2, rfl⟩, hk'⟩, rfl⟩

theorem toy_fill (p q : ℝ) : Spec.Fill [⟨[], fun _ => p⟩, ⟨[], fun _ => q⟩] [] := by
  refine ⟨?_, by simp⟩
  intro a ha
  simp only [List.mem_cons, List.not_mem_nil, or_false] at ha
  rcases ha with rfl | rfl <;> exact Or.inl rfl

/-- C71 full claim fails for parts in series: `(x|xx)` with probability 1/2 and
`(xx|xxx)` with probability 1/3 compose to 1/2, not 1/6. -/
theorem C71_claim_fails : ¬ C71_claim := by
  intro h
  set E := toyVars 1
  set a := toyDep 0 1 (1/2) (.lin 1)
  set b := toyDep 1 2 (1/3) (.lin 1)
  have hsc : fieldRefresh (sdScales E [0, 1, 2]) = .ok (.lin 1) := toyScale 1 one_ne_zero _ (by simp)
  have ho : sdCompose E [a, b] none none = .ok ⟨⟨[0, 1, 2], [(2, 1), (1, 0)], [0], [], some [2],
      some [2]⟩, .lin 1, archProb E true [b, a]⟩ := by
    have h1 : depOfDeps E.info true ([a, b].map SDObj.dep) =
        .ok ⟨[0, 1, 2], [(2, 1), (1, 0)], [0], [], some [2], some [2]⟩ := rfl
    have h2 : ([a, b].map SDObj.dep).mapM runLeafsRoots = .ok [([0], [1]), ([1], [2])] := rfl
    have h3 : archKind [([0], [1]), ([1], [2])] = some true := rfl
    exact sdCompose_own E h2 h3 h1 hsc
  have hq : Spec.Evals E (toyValues [0, 1, 2]) (toyDims [0, 1, 2]) [a, b]
      [⟨[], fun _ => 1/2⟩, ⟨[], fun _ => 1/3⟩] :=
    .cons (toy_evals 1 _ (Or.inl rfl) _ _ _ _ (by simp) (by simp))
      (.cons (toy_evals 1 _ (Or.inl rfl) _ _ _ _ (by simp) (by simp)) .nil)
  obtain ⟨r, h1, h2, h3⟩ := h Unit E [a, b] _ (toyValues [0, 1, 2]) (toyDims [0, 1, 2]) _ []
    (toyVars_inj 1) (by simp) ho rfl rfl hq (toy_fill _ _)
  have hser : Spec.Series [a, b] := ⟨by simp, by simp [a, b, toyDep], by
    rw [← isSerial_iff]; rfl⟩
  rw [C71_series E (toyVars_inj 1) a [b] _ none none hser ho _ _ rfl rfl _ _ hq] at h1
  cases h1
  have := h3 [] (by simp [idx, indices])
  simp [Spec.value, Spec.combined, a, b, toyDep, Arr.bget] at this

/-- C71 fails for parts in parallel when the variable they share is on a scale other
than one: `(x|xx)` and `(x|xxx)` both certain, stored as 1/2 on scale 2, compose to
1/4 on scale 2. -/
theorem C71_scales_claim_fails : ∃ (E : SDVars Unit) (a b o : SDObj Unit) (values : Dict Str Unit)
    (dims : Dict Str (Option ℕ)) (qs : List Arr) (r : Arr),
    (∀ u v, (E.info u).name = (E.info v).name → u = v) ∧ Spec.Parallel [0] [a, b] ∧
    fieldRefresh (a.dep.nodes.map E.scale) = .ok a.scale ∧
    fieldRefresh (b.dep.nodes.map E.scale) = .ok b.scale ∧
    sdCompose E [a, b] none none = .ok o ∧ values.keys = o.keys E ∧ dims.keys = o.keys E ∧
    Spec.Evals E values dims [a, b] qs ∧ o.evalProb E values dims = .ok r ∧
    Spec.value o.scale (r.get []) ≠ Spec.combined [a, b] qs [] := by
  set E := toyVars 2 with hE
  set a := toyDep 0 1 (1/2) (.lin 2) with ha
  set b := toyDep 0 2 (1/2) (.lin 2) with hb
  have hsc : fieldRefresh (sdScales E [0, 1, 2]) = .ok (.lin 2) := toyScale 2 two_ne_zero _ (by simp)
  have ho : sdCompose E [a, b] none none = .ok ⟨⟨[0, 1, 2], [(2, 0), (1, 0)], [0], [],
      some [1, 2], some [1, 2]⟩, .lin 2, archProb E false [b, a]⟩ := by
    have h1 : depOfDeps E.info true ([a, b].map SDObj.dep) =
        .ok ⟨[0, 1, 2], [(2, 0), (1, 0)], [0], [], some [1, 2], some [1, 2]⟩ := rfl
    have h2 : ([a, b].map SDObj.dep).mapM runLeafsRoots = .ok [([0], [1]), ([0], [2])] := rfl
    have h3 : archKind [([0], [1]), ([0], [2])] = some false := rfl
    exact sdCompose_own E h2 h3 h1 hsc
  have hq : Spec.Evals E (toyValues [0, 1, 2]) (toyDims [0, 1, 2]) [a, b]
      [⟨[], fun _ => 1/2⟩, ⟨[], fun _ => 1/2⟩] :=
    .cons (toy_evals 2 _ (Or.inl rfl) _ _ _ _ (by simp) (by simp))
      (.cons (toy_evals 2 _ (Or.inl rfl) _ _ _ _ (by simp) (by simp)) .nil)
  have hp : Spec.Parallel [0] [a, b] :=
    ⟨by simp, by simp, by simp [ha, hb, toyDep], by simp [ha, hb, toyDep]⟩
  obtain ⟨r, h1, h2, h3, -⟩ := C71_parallel_partial E (toyVars_inj 2) [0] [a, b] _ none none hp ho
    (toyValues [0, 1, 2]) (toyDims [0, 1, 2]) rfl rfl _ hq [] (toy_fill _ _)
    (by simp [ha, hb, toyDep, PScale.spec, evalPscale]) (by simp [ha, hb, toyDep, PScale.iscomplex])
  refine ⟨E, a, b, _, _, _, _, r, toyVars_inj 2, hp, ?_, ?_, ho, rfl, rfl, hq, h1, ?_⟩
  · exact toyScale 2 two_ne_zero _ (by simp [ha, toyDep])
  · exact toyScale 2 two_ne_zero _ (by simp [hb, toyDep])
  · have := h3 [] (by simp [idx, indices])
    intro hc
    rw [← this] at hc
    simp only [Spec.value, ha, hb, toyDep, List.map_cons, List.map_nil, Spec.factor,
      List.prod_cons, List.prod_nil, mul_one] at hc
    have h4 : r.get [] = 0 := by linarith
    rw [h4] at this
    simp [Spec.value, Spec.combined, ha, hb, toyDep, Arr.bget] at this

/-- C71 fails for parts neither in series nor in parallel: `(x|xx)` and `(xxx|xx)`,
each with probability 1/2, compose to 1, the product of the variables' own
probabilities. -/
theorem C71_neither_claim_fails : ∃ (E : SDVars Unit) (a b o : SDObj Unit) (values : Dict Str Unit)
    (dims : Dict Str (Option ℕ)) (qs : List Arr) (r : Arr),
    (∀ u v, (E.info u).name = (E.info v).name → u = v) ∧
    sdCompose E [a, b] none none = .ok o ∧ values.keys = o.keys E ∧ dims.keys = o.keys E ∧
    Spec.Evals E values dims [a, b] qs ∧ o.evalProb E values dims = .ok r ∧
    Spec.value o.scale (r.get []) ≠ Spec.combined [a, b] qs [] := by
  set E := toyVars 1 with hE
  set a := toyDep 0 1 (1/2) (.lin 1) with ha
  set b := toyDep 2 1 (1/2) (.lin 1) with hb
  have hsc : fieldRefresh (sdScales E [0, 2, 1]) = .ok (.lin 1) := toyScale 1 one_ne_zero _ (by simp)
  have ho : sdCompose E [a, b] none none = .ok ⟨⟨[0, 2, 1], [(1, 2), (1, 0)], [0, 2], [],
      some [1], some [1]⟩, .lin 1, sdIndep E [0, 2, 1]⟩ := by
    have h1 : depOfDeps E.info true ([a, b].map SDObj.dep) =
        .ok ⟨[0, 2, 1], [(1, 2), (1, 0)], [0, 2], [], some [1], some [1]⟩ := rfl
    have h2 : ([a, b].map SDObj.dep).mapM runLeafsRoots = .ok [([0], [1]), ([2], [1])] := rfl
    have h3 : archKind [([0], [1]), ([2], [1])] = none := rfl
    unfold sdCompose
    simp only [h1, h2, h3, bind, Except.bind, Option.map_none, sdSetProb, rfSetProb, hsc,
      C70_field _ _ hsc, pure, Except.pure, Option.getD_none]
  have hq : Spec.Evals E (toyValues [0, 2, 1]) (toyDims [0, 2, 1]) [a, b]
      [⟨[], fun _ => 1/2⟩, ⟨[], fun _ => 1/2⟩] :=
    .cons (toy_evals 1 _ (Or.inr rfl) _ _ _ _ (by simp) (by simp))
      (.cons (toy_evals 1 _ (Or.inr rfl) _ _ _ _ (by simp) (by simp)) .nil)
  have hr : ∃ r, sdIndep E [0, 2, 1] (toyValues [0, 2, 1]) (toyDims [0, 2, 1]) = .ok r ∧
      r.get [] = 1 := by
    obtain ⟨r, r1, r2, r3⟩ := applyProdArr_ok (S := []) false
      (qs := [⟨[], fun _ => 1⟩, ⟨[], fun _ => 1⟩, ⟨[], fun _ => 1⟩]) (by simp)
      (by simp [FitsR]) (by simp)
    refine ⟨r, ?_, ?_⟩
    · have hm : sdIndep E [0, 2, 1] (toyValues [0, 2, 1]) (toyDims [0, 2, 1]) =
          prodRuleArr [⟨[], fun _ => 1⟩, ⟨[], fun _ => 1⟩, ⟨[], fun _ => 1⟩]
            ([0, 2, 1].map E.scale) := rfl
      rw [hm]
      rw [← r1]
      simp [prodRuleArr, hE, toyVars, PScale.iscomplex]
    · have := r3 [] (by simp [idx, indices])
      simp [applyProd, Arr.bget] at this
      exact this.symm
  obtain ⟨r, hr1, hr2⟩ := hr
  refine ⟨E, a, b, _, _, _, _, r, toyVars_inj 1, ho, rfl, rfl, hq, ?_, ?_⟩
  · rw [evalProb_self E rfl]; exact hr1
  · simp [hr2, Spec.value, Spec.combined, ha, hb, toyDep, Arr.bget]
    norm_num

/-- Non-vacuity of `C71_parallel_partial`: `(x|xx)` and `(x|xxx)` on scale one, where the
composed dependence has the product of the scales. -/
example : ∃ (E : SDVars Unit) (a b o : SDObj Unit) (qs : List Arr),
    (∀ u v, (E.info u).name = (E.info v).name → u = v) ∧ Spec.Parallel [0] [a, b] ∧
    sdCompose E [a, b] none none = .ok o ∧ (toyValues [0, 1, 2]).keys = o.keys E ∧
    (toyDims [0, 1, 2]).keys = o.keys E ∧
    Spec.Evals E (toyValues [0, 1, 2]) (toyDims [0, 1, 2]) [a, b] qs ∧ Spec.Fill qs [] ∧
    (∀ c ∈ [a, b], evalPscale c.scale.spec = .ok c.scale ∧ c.scale.iscomplex = false) ∧
    o.scale = .lin ([a, b].map fun a => Spec.factor a.scale).prod := by
  set E := toyVars 1 with hE
  set a := toyDep 0 1 (1/2) (.lin 1) with ha
  set b := toyDep 0 2 (1/3) (.lin 1) with hb
  have hsc : fieldRefresh (sdScales E [0, 1, 2]) = .ok (.lin 1) :=
    toyScale 1 one_ne_zero _ (by simp)
  have ho : sdCompose E [a, b] none none = .ok ⟨⟨[0, 1, 2], [(2, 0), (1, 0)], [0], [],
      some [1, 2], some [1, 2]⟩, .lin 1, archProb E false [b, a]⟩ := by
    have h1 : depOfDeps E.info true ([a, b].map SDObj.dep) =
        .ok ⟨[0, 1, 2], [(2, 0), (1, 0)], [0], [], some [1, 2], some [1, 2]⟩ := rfl
    have h2 : ([a, b].map SDObj.dep).mapM runLeafsRoots = .ok [([0], [1]), ([0], [2])] := rfl
    have h3 : archKind [([0], [1]), ([0], [2])] = some false := rfl
    exact sdCompose_own E h2 h3 h1 hsc
  refine ⟨E, a, b, _, [⟨[], fun _ => 1/2⟩, ⟨[], fun _ => 1/3⟩], toyVars_inj 1,
    ⟨by simp, by simp, by simp [ha, hb, toyDep], by simp [ha, hb, toyDep]⟩, ho, rfl, rfl,
    .cons (toy_evals 1 _ (Or.inl rfl) _ _ _ _ (by simp) (by simp))
      (.cons (toy_evals 1 _ (Or.inl rfl) _ _ _ _ (by simp) (by simp)) .nil), toy_fill _ _,
    by simp [ha, hb, toyDep, PScale.spec, evalPscale, PScale.iscomplex],
    by simp [ha, hb, toyDep, Spec.factor]⟩

end Probayes
