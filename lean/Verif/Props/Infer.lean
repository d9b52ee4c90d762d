/-
C94: exact inference on a grid and Bayes' rule (Model/Infer.lean).
-/
import Verif.Model.Infer
import Verif.Lemmas.Infer

namespace Probayes

/-- The variable has the prior probabilities `g`, on a linear scale: whatever it is asked for,
its distribution has `g` of the values it answers with. -/
def Spec.HasPrior (fmt : Val → Str) (v : Drawn) (g : ℚ → ℝ) : Prop :=
  ∀ q xs, xs ≠ [] → v.var.evaluate q v.r v.perm = .ok (.array xs) →
    ∃ d, v.var.call fmt q v.r v.perm = .ok d ∧ (∃ c : ℝ, 0 < c ∧ d.pscale = .lin c) ∧
      ∀ (i : ℕ) (x : ℚ), xs[i]? = some x → d.at [i] = g x

/-- The prior probability of a point: the product over the roots. -/
noncomputable def Spec.prior (roots : List Drawn) (g : Str → ℚ → ℝ) (θ : Str → Option ℚ) : ℝ :=
  (roots.map fun v => (θ v.name).elim 0 (g v.name)).prod

/-- The prior times the likelihood of independent observations of `x`. -/
noncomputable def Spec.posteriorWeight (roots : List Drawn) (g : Str → ℚ → ℝ)
    (f : (Str → Option ℚ) → ℝ) (x : Str) (data : List ℚ) (θ : Str → Option ℚ) : ℝ :=
  Spec.prior roots g θ * (data.map fun y => f (Function.update θ x (some y))).prod

/-- Observations `data` of the leaf `x` and a grid of values for every root. -/
structure Spec.Study (fmt : Val → Str) (D : SDep) (x : Str) (data : List ℚ) (values : Dict Str Req)
    (grids : List (Str × List ℚ)) : Prop where
  dep : Spec.Dep fmt D
  leaf : ∃ v, D.leafs = [v] ∧ v.name = x ∧ Spec.Answers values v (.array data)
  observed : data ≠ []
  roots : D.roots ≠ []
  keys : values.keys.Nodup
  known : ∀ k ∈ values.keys, k ∈ D.vars.map Drawn.name
  /-- values for the roots are asked for (`C73_joint_claim_fails`) -/
  grids : List.Forall₂ (fun (v : Drawn) kx => kx.1 = v.name ∧ Spec.Answers values v (.array kx.2) ∧
    kx.2 ≠ [] ∧ Spec.request values v.name ≠ .all) D.roots grids
  /-- the number of observations can be written in a name -/
  text : ∀ n : ℕ, Spec.Entry x (eqText fmt x (.setint n))

/-- `post` is the distribution of the roots, on their grids, given as many observations of `x`
as there are, with probabilities `W` divided by `Z`. -/
structure Spec.Posterior (D : SDep) (x : Str) (data : List ℚ) (grids : List (Str × List ℚ))
    (W : (Str → Option ℚ) → ℝ) (Z : ℝ) (post : PD) : Prop where
  marg : post.marg.keys = D.roots.map Drawn.name
  cond : post.cond.keys = [x]
  count : post.values x = some (.setint data.length)
  values : ∀ kx ∈ grids, post.values kx.1 = some (.arr [kx.2.length] kx.2)
  points : ∀ θ, θ ∈ Spec.gridPoints grids ↔ ∃ j ∈ idx post.shape, Spec.pointAt post j = θ
  entry : ∀ j ∈ idx post.shape, post.at j = W (Spec.pointAt post j) / Z
  total : ∑ j ∈ idx post.shape, post.at j = ((Spec.gridPoints grids).map W).sum / Z

variable {fmt : Val → Str}

/-- A number set as probability: `c` times the number on the set, zero outside. -/
theorem prior_number {v : Drawn} (h : Spec.GoodName fmt v.var) {p c : ℝ} (hp : v.var.prob = .scalar p)
    (hc : 0 < c) (hb : evalPscale v.var.pscale = .ok (.lin c)) :
    Spec.HasPrior fmt v fun x => if x ∈ v.var.vset then c * p else 0 := by
  intro q xs _ he
  obtain ⟨d, d1, _, _, _, _, _, _, _, d9, d10⟩ := C60_call h p hp _ hb q v.r v.perm _ he
  refine ⟨d, d1, ⟨c, hc, d9⟩, ?_⟩
  intro i x hx
  rw [PD.at, d9, d10 [i] x (by simpa [VArg.entry] using hx)]
  simp only [Spec.value, Spec.nought]
  split <;> simp [PScale.iscomplex]

/-- A function set as probability, applied to every value. -/
theorem prior_function {v : Drawn} (h : Spec.GoodName fmt v.var) {F : VArg ℚ → Py Arr} {g : ℚ → ℝ}
    {c : ℝ} (hp : v.var.prob = .fn F)
    (hF : ∀ xs, ∃ a, F (.array xs) = .ok a ∧ a.shape = [xs.length] ∧
      ∀ (i : ℕ) (x : ℚ), xs[i]? = some x → a.get [i] = g x)
    (hc : 0 < c) (hb : evalPscale v.var.pscale = .ok (.lin c)) :
    Spec.HasPrior fmt v fun x => c * g x := by
  intro q xs _ he
  obtain ⟨a, a1, a2, a3⟩ := hF xs
  obtain ⟨d, d1, _, _, _, _, _, _, d9, d10⟩ :=
    C60_call_function h F hp _ hb q v.r v.perm _ he a a1 (by simpa [VArg.sizes] using a2)
  refine ⟨d, d1, ⟨c, hc, d9⟩, ?_⟩
  intro i x hx
  rw [PD.at, d9, d10, a3 i x hx]
  rfl

/-! ### The prior at an entry -/

/-- The entries of the product of the roots' distributions. -/
theorem prior_at {ps : List Part} {vs : Dict Str Req} (hok : ∀ p ∈ ps, p.Ok fmt vs)
    {g : Str → ℚ → ℝ}
    (hx : ∀ p ∈ ps, ∃ xs, p.x = .array xs ∧
      ∀ (i : ℕ) (x : ℚ), xs[i]? = some x → p.d.at [i] = g p.v.name x)
    {prior : PD} (hw : prior.WF fmt) (hP : Spec.Product (ps.map Part.d) prior)
    {j : List ℕ} (hj : j ∈ idx prior.shape) :
    prior.at j = Spec.prior (ps.map Part.v) g (Spec.pointAt prior j) := by
  haveI : Nonempty (List ℕ) := ⟨[]⟩
  have hix := fun a ha => (hP.index j hj a ha).exists
  choose! ix hix using hix
  have hall : List.Forall₂ (fun a i => i ∈ idx a.shape ∧ Spec.Agree a prior i j)
      (ps.map Part.d) ((ps.map Part.d).map ix) := by
    rw [List.forall₂_map_right_iff, List.forall₂_same]
    exact hix
  rw [hP.entry j hj _ hall, Spec.prior, List.map_map, List.map_map]
  congr 1
  rw [List.zipWith_map, List.zipWith_self]
  apply List.map_congr_left
  intro p hp
  have hm : p.d ∈ ps.map Part.d := List.mem_map_of_mem hp
  obtain ⟨h1, h2⟩ := hix p.d hm
  obtain ⟨xs, e1, e2⟩ := hx p hp
  rw [(hok p hp).dshape, e1] at h1
  simp only [VArg.sizes] at h1
  obtain ⟨m, hm', hi⟩ : ∃ m, m < xs.length ∧ ix p.d = [m] := by
    rw [mem_idx] at h1
    rcases hi : ix p.d with _ | ⟨m, _ | ⟨m', l⟩⟩
    · rw [hi] at h1; cases h1
    · rw [hi] at h1
      rcases h1 with _ | ⟨h1, _⟩
      exact ⟨m, h1, rfl⟩
    · rw [hi] at h1
      rcases h1 with _ | ⟨_, h1⟩
      cases h1
  have hv : p.d.values p.v.name = prior.values p.v.name :=
    (hP.values p.d hm p.v.name (by rw [(hok p hp).keylist]; simp)).symm
  have hpt := pointAt_congr (hok p hp).wf hw hv (h2 p.v.name)
  have hax := (hok p hp).axis
  rw [e1] at hax
  have hval := (hok p hp).values
  rw [e1] at hval
  have hq : Spec.pointAt p.d (ix p.d) p.v.name = some xs[m] := by
    rw [Spec.pointAt, hval, hi]
    simp [VArg.toVal, hax, VArg.isscalar, hm']
  simp only [Function.comp]
  rw [← hpt, hq, hi, e2 m xs[m] (by simp [hm'])]
  rfl

/-- The prior at an entry of the joint distribution. -/
theorem joint_prior {roots : List Drawn} {g : Str → ℚ → ℝ} {d e : PD} (h : d.WF fmt) (h' : e.WF fmt)
    (hv : ∀ v ∈ roots, v.name ∈ d.keylist ∧ d.values v.name = e.values v.name) {i j : List ℕ}
    (hag : Spec.Agree d e i j) :
    Spec.prior roots g (Spec.pointAt d i) = Spec.prior roots g (Spec.pointAt e j) := by
  unfold Spec.prior
  congr 1
  apply List.map_congr_left
  intro v hv'
  rw [pointAt_congr h h' (hv v hv').2 (hag v.name)]

/-- Everything about the division. -/
theorem bayes_ok {prior like J : PD} {keys : List Str} {c : ℝ}
    (hp : product fmt [prior, like] = .ok (some J)) (V : Spec.Dividend fmt J keys)
    (hs : J.pscale = .lin c) :
    ∃ post, bayes fmt prior like keys = .ok post ∧ post.WF fmt ∧ Spec.CondForm J keys post ∧
      (∀ k, post.axis k = J.axis k) ∧ post.shape = J.shape ∧
      ∀ i ∈ idx J.shape, post.at i = J.at i / max npz (Spec.massGiven J keys i) := by
  obtain ⟨e, rest, r, h1, h2, h3, h4, h5, -, h6, h7, Q⟩ := divide_core V
  refine ⟨r, ?_, h7, Q.condForm V.wf V.own h5, Q.axis, Q.shape, ?_⟩
  · simp only [bayes, hp, bind, Except.bind, h1, h6]
  · intro i hi
    obtain ⟨j, ⟨hj, hij⟩, -⟩ := Q.index i hi
    have hm := h3.massGiven V.wf h2 h4 hij
    have he := h3.entry j hj (sumAt_writable V.tame h3 j hj)
    rw [← hm] at he
    have hw : ∀ y, Spec.Writable J.pscale y := by intro y; rw [hs]; trivial
    rw [← he]
    rcases le_or_gt npz (e.at j) with hle | hlt
    · rw [max_eq_right hle]
      exact Q.entry i hi j hj hij hle (hw _)
    · rw [max_eq_left hlt.le]
      exact Q.below i hi j hj hij hlt (hw _)

theorem pointAt_same {d e : PD} (hv : ∀ k, d.values k = e.values k) (ha : ∀ k, d.axis k = e.axis k)
    (j : List ℕ) : Spec.pointAt d j = Spec.pointAt e j := by
  funext k
  simp only [Spec.pointAt, hv, ha]

/-! ### Inference from independent observations -/

theorem map_elim_forall₂ {values : Dict Str Req} {roots : List Drawn} {grids : List (Str × List ℚ)}
    (h : List.Forall₂ (fun (v : Drawn) (kx : Str × List ℚ) => kx.1 = v.name ∧
      Spec.Answers values v (.array kx.2) ∧ kx.2 ≠ [] ∧ Spec.request values v.name ≠ .all) roots grids) :
    grids.map Prod.fst = roots.map Drawn.name ∧
    (∀ v ∈ roots, ∃ kx ∈ grids, kx.1 = v.name ∧ Spec.Answers values v (.array kx.2) ∧
      kx.2 ≠ [] ∧ Spec.request values v.name ≠ .all) ∧
    (∀ kx ∈ grids, ∃ v ∈ roots, kx.1 = v.name ∧ Spec.Answers values v (.array kx.2) ∧
      kx.2 ≠ [] ∧ Spec.request values v.name ≠ .all) := by
  induction h with
  | nil => simp
  | cons hab _ ih =>
    obtain ⟨h1, h2, h3⟩ := ih
    refine ⟨by simp [h1, hab.1], ?_, ?_⟩
    · intro v hv
      rcases List.mem_cons.mp hv with rfl | hv
      · exact ⟨_, by simp, hab⟩
      · obtain ⟨kx, hkx, h⟩ := h2 v hv
        exact ⟨kx, by simp [hkx], h⟩
    · intro kx hkx
      rcases List.mem_cons.mp hkx with rfl | hkx
      · exact ⟨_, by simp, hab⟩
      · obtain ⟨v, hv, h⟩ := h3 kx hkx
        exact ⟨v, by simp [hv], h⟩

theorem infer_core {D : SDep} {x : Str} {data : List ℚ} {values : Dict Str Req}
    {grids : List (Str × List ℚ)} {f : (Str → Option ℚ) → ℝ} {g : Str → ℚ → ℝ}
    (S : Spec.Study fmt D x data values grids) (hf : Spec.Pointwise D.prob f)
    (hg : ∀ v ∈ D.roots, Spec.HasPrior fmt v (g v.name)) (hs : D.pscale = .lin 1) :
    ∃ post, D.infer fmt values (.bool true) = .ok post ∧ post.WF fmt ∧
      Spec.Posterior D x data grids (Spec.posteriorWeight D.roots g f x data)
        (max npz ((Spec.gridPoints grids).map (Spec.posteriorWeight D.roots g f x data)).sum) post := by
  classical
  obtain ⟨w, hlw, hwx, hwa⟩ := S.leaf
  obtain ⟨hgn, hgr, hgk⟩ := map_elim_forall₂ S.grids
  have hD := S.dep
  have hleaf : D.leafs.map Drawn.name = [x] := by rw [hlw]; simp [hwx]
  have hnLR : ((D.leafs ++ D.roots).map Drawn.name).Nodup := (hD.all.map _).nodup_iff.mpr hD.nodup
  rw [List.map_append, List.nodup_append, hleaf] at hnLR
  obtain ⟨_, hnR, hdis⟩ := hnLR
  have hxR : x ∉ D.roots.map Drawn.name := fun h => hdis x (by simp) x h rfl
  have hroots : ∀ v ∈ D.roots, v ∈ D.vars := fun v hv =>
    hD.all.mem_iff.mp (List.mem_append_right _ hv)
  have hA : Spec.Asks D values := by
    refine ⟨S.keys, S.known, ?_⟩
    intro v hv
    rcases List.mem_append.mp (hD.all.mem_iff.mpr hv) with hv | hv
    · rw [hlw, List.mem_singleton] at hv
      subst hv
      exact ⟨_, hwa, by simpa [VArg.sizes] using List.length_pos_iff.mpr S.observed⟩
    · obtain ⟨kx, _, _, h2, h3, _⟩ := hgr v hv
      exact ⟨_, h2, by simpa [VArg.sizes] using List.length_pos_iff.mpr h3⟩
  have hO : Spec.Observed fmt D values [x] := by
    refine ⟨by simp, by simp [hleaf], ?_, ?_⟩
    · intro v hv _ y hy
      rw [hlw, List.mem_singleton] at hv
      subst hv
      exact ⟨data, answers_unique hy hwa⟩
    · intro k hk n
      rw [List.mem_singleton.mp hk]
      exact S.text n
  obtain ⟨d, like, c1, c2, c3, c4, c5, c6⟩ := iid_likes [x] hD hA hf hO (.inl hs)
  -- the likelihood
  have hvx : d.values x = some (.arr [data.length] data) := by
    obtain ⟨y, y1, y2, _⟩ := c1.values w (hD.all.mem_iff.mp (List.mem_append_left _ (by simp [hlw])))
    rw [answers_unique y1 hwa, hwx] at y2
    simpa [VArg.toVal] using y2
  obtain ⟨a, ha, _⟩ := axis_of_arr c1.wf hvx
  have hlike : ∀ i ∈ idx like.shape, like.at i =
      (data.map fun y => f (Function.update (Spec.pointAt like i) x (some y))).prod := by
    intro i hi
    rw [c6 i hi]
    refine prodAt_one c1.wf c3.wf c1.own c4 hvx ha ?_ hi
    intro i' hi'
    rw [c1.entry i' hi', hs]
    simp [Spec.value]
  -- the prior
  have hpri : ∀ v ∈ D.roots, ∃ xs q, (v.name, xs) ∈ grids ∧ Spec.Answers values v (.array xs) ∧ xs ≠ [] ∧
      v.var.call fmt (.array xs) v.r v.perm = .ok q ∧ (∃ c : ℝ, 0 < c ∧ q.pscale = .lin c) ∧
      ∀ (i : ℕ) (y : ℚ), xs[i]? = some y → q.at [i] = g v.name y := by
    intro v hv
    obtain ⟨⟨k, xs⟩, hkx, h1, h2, h3, _⟩ := hgr v hv
    simp only at h1 h2 h3
    subst h1
    obtain ⟨q, q1, q2, q3⟩ := hg v hv (.array xs) xs h3 rfl
    exact ⟨xs, q, hkx, h2, h3, q1, q2, q3⟩
  have hpriF : ∀ l : List Drawn, (∀ v ∈ l, v ∈ D.roots) → ∃ ds : List PD,
      List.Forall₂ (fun (v : Drawn) q => ∃ xs, (v.name, xs) ∈ grids ∧ Spec.Answers values v (.array xs) ∧
        xs ≠ [] ∧ v.var.call fmt (.array xs) v.r v.perm = .ok q ∧ (∃ c : ℝ, 0 < c ∧ q.pscale = .lin c) ∧
        ∀ (i : ℕ) (y : ℚ), xs[i]? = some y → q.at [i] = g v.name y) l ds := by
    intro l
    induction l with
    | nil => exact fun _ => ⟨[], .nil⟩
    | cons v l ih =>
      intro hl
      obtain ⟨ds, hds⟩ := ih fun v hv => hl v (by simp [hv])
      obtain ⟨xs, q, h⟩ := hpri v (hl v (by simp))
      exact ⟨q :: ds, .cons ⟨xs, h⟩ hds⟩
  obtain ⟨ds, hds⟩ := hpriF D.roots fun _ h => h
  have hpd : ∀ (v : Drawn) (q : PD) (xs : List ℚ), v ∈ D.roots → xs ≠ [] →
      v.var.call fmt (.array xs) v.r v.perm = .ok q → q.Pos := by
    intro v q xs hv hne hq
    obtain ⟨p, hp1, rfl, hp3⟩ := call_inv (values := [(v.name, .array xs)]) (hD.good v (hroots v hv))
      (by simpa [Spec.request, Dict.get?] using hq)
    have he := hp3.eval
    rw [← hp3.req, hp1] at he
    simp only [Spec.request, Dict.get?, if_true, Option.getD_some, DRV.evaluate, Except.ok.injEq] at he
    rw [PD.Pos, hp3.dshape, ← he]
    simpa [VArg.sizes] using List.length_pos_iff.mpr hne
  have hP : Spec.Priors fmt D values ds := by
    have : ∀ (l : List Drawn) (es : List PD), (∀ v ∈ l, v ∈ D.roots) →
        List.Forall₂ (fun (v : Drawn) q => ∃ xs, (v.name, xs) ∈ grids ∧
          Spec.Answers values v (.array xs) ∧
          xs ≠ [] ∧ v.var.call fmt (.array xs) v.r v.perm = .ok q ∧ (∃ c : ℝ, 0 < c ∧ q.pscale = .lin c) ∧
          ∀ (i : ℕ) (y : ℚ), xs[i]? = some y → q.at [i] = g v.name y) l es →
        List.Forall₂ (fun (v : Drawn) d => ∃ x, Spec.Answers values v x ∧
          v.var.call fmt (Spec.held x) v.r v.perm = .ok d ∧ d.Pos) l es := by
      intro l es hl h
      induction h with
      | nil => exact .nil
      | @cons v q _ _ hab _ ih =>
        obtain ⟨xs, _, h2, h3, h4, _⟩ := hab
        exact .cons ⟨.array xs, h2, h4, hpd v q xs (hl v (by simp)) h3 h4⟩
          (ih fun v hv => hl v (by simp [hv]))
    exact this _ _ (fun _ h => h) hds
  have hdsl : ∀ q ∈ ds, ∃ c : ℝ, 0 < c ∧ q.pscale = .lin c := by
    intro q hq
    obtain ⟨i, hi, rfl⟩ := List.mem_iff_getElem.mp hq
    obtain ⟨xs, _, _, _, _, h, _⟩ :=
      List.forall₂_iff_get.mp hds |>.2 i (by rw [hds.length_eq]; exact hi) hi
    exact h
  obtain ⟨vs, v1, C, v3, hF⟩ := joint_core hD c3 S.roots hP
  obtain ⟨prior, q1, q2, q3, q4⟩ := C63_linear_partial C fun q hq => by
    obtain ⟨c, _, hc⟩ := hdsl q hq
    rw [hc]; rfl
  obtain ⟨F, G⟩ := hF prior q2 q3 fun v hv => by
    obtain ⟨_, _, _, _, _, h⟩ := hgr v hv
    exact h
  have hpl : ∃ c : ℝ, 0 < c ∧ prior.pscale = .lin c := by
    refine ⟨_, ?_, q4⟩
    apply List.prod_pos
    intro y hy
    obtain ⟨q, hq, rfl⟩ := List.mem_map.mp hy
    obtain ⟨c, hc, he⟩ := hdsl q hq
    rw [he]; exact hc
  obtain ⟨ps, p1, p2, p3⟩ := parts_of_calls C.good C.calls
  obtain ⟨hpc, hpm⟩ := prior_marg p3 (by rw [p2]; exact q3)
  have hpmk : prior.marg.keys = D.roots.map Drawn.name := by
    rw [hpm, keys_sideOf, ← p1, List.map_map]; rfl
  have hpx : ∀ p ∈ ps, ∃ xs, (p.v.name, xs) ∈ grids ∧ p.x = .array xs ∧
      ∀ (i : ℕ) (y : ℚ), xs[i]? = some y → p.d.at [i] = g p.v.name y := by
    have key : ∀ (l : List Part), (∀ p ∈ l, p ∈ ps) →
        List.Forall₂ (fun (v : Drawn) q => ∃ xs, (v.name, xs) ∈ grids ∧
          Spec.Answers values v (.array xs) ∧
          xs ≠ [] ∧ v.var.call fmt (.array xs) v.r v.perm = .ok q ∧ (∃ c : ℝ, 0 < c ∧ q.pscale = .lin c) ∧
          ∀ (i : ℕ) (y : ℚ), xs[i]? = some y → q.at [i] = g v.name y) (l.map Part.v) (l.map Part.d) →
        ∀ p ∈ l, ∃ xs, (p.v.name, xs) ∈ grids ∧ p.x = .array xs ∧
          ∀ (i : ℕ) (y : ℚ), xs[i]? = some y → p.d.at [i] = g p.v.name y := by
      intro l hl h
      induction l with
      | nil => simp
      | cons p l ih =>
        rcases h with _ | ⟨hab, h⟩
        intro p' hp'
        rcases List.mem_cons.mp hp' with rfl | hp'
        · obtain ⟨xs, h1, h2, _, _, _, h3⟩ := hab
          refine ⟨xs, h1, ?_, h3⟩
          have hp := hl p' (by simp)
          have hv : p'.v ∈ D.roots := by rw [← p1]; exact List.mem_map_of_mem hp
          have he := (p3 p' hp).eval
          rw [← (p3 p' hp).req, Spec.request, v3 p'.v hv _ h2] at he
          exact (Except.ok.inj he).symm
        · exact ih (fun p hp => hl p (by simp [hp])) h p' hp'
    exact key ps (fun _ h => h) (by rw [p1, p2]; exact hds)
  -- the joint distribution
  have hck : like.cond.keys = D.roots.map Drawn.name := keys_texts c3.cond
  have hxn : like.axis x = none := (c4.counts x (by simp)).1
  have hxv : like.values x = some (.setint data.length) := by
    obtain ⟨_, data', h1, h2⟩ := c4.counts x (by simp)
    rw [hvx] at h1
    simp only [Option.some.injEq, Val.arr.injEq] at h1
    rw [h1.2]; exact h2
  have hlk : ∀ k, k ∈ like.keylist ↔ k = x ∨ k ∈ D.roots.map Drawn.name := by
    intro k
    have := c3.wf.keys k
    rw [c3.marg, hleaf, hck] at this
    simpa using this
  have hpk : ∀ k, k ∈ prior.keylist ↔ k ∈ D.roots.map Drawn.name := by
    intro k
    have := q2.keys k
    rw [hpc, hpmk] at this
    simpa using this
  have hgv : ∀ kx ∈ grids, like.values kx.1 = some (.arr [kx.2.length] kx.2) := by
    intro kx hkx
    obtain ⟨v, hv, h1, h2, _⟩ := hgk kx hkx
    obtain ⟨y, y1, y2⟩ := c3.values v hv
    rw [h1, y2, answers_unique y1 h2]; rfl
  have hgp : ∀ kx ∈ grids, prior.values kx.1 = some (.arr [kx.2.length] kx.2) := by
    intro kx hkx
    obtain ⟨v, hv, h1, _⟩ := hgk kx hkx
    have hv' := hv
    rw [← p1] at hv'
    obtain ⟨p, hp, rfl⟩ := List.mem_map.mp hv'
    obtain ⟨xs, hxs, hpx', _⟩ := hpx p hp
    have hnd : (grids.map Prod.fst).Nodup := by rw [hgn]; exact hnR
    have : kx = (p.v.name, xs) := List.inj_on_of_nodup_map hnd hkx hxs h1
    rw [h1, q3.values p.d (by rw [← p2]; exact List.mem_map_of_mem hp) p.v.name
      (by rw [(p3 p hp).keylist]; simp), (p3 p hp).values, hpx', this]
    rfl
  obtain ⟨J, j1, P, V, ps'⟩ := product_dividend (keys := [x]) F G (by
      intro a ha
      simp only [List.mem_cons, List.not_mem_nil, or_false] at ha
      rcases ha with rfl | rfl
      · exact hpl
      · exact ⟨1, one_pos, by rw [c5, hs]⟩) (by simp)
    (by
      intro k hk
      exact ⟨like, by simp, by rw [c3.marg, hleaf]; exact hk⟩)
    (by
      intro a ha k hk hn
      simp only [List.mem_cons, List.not_mem_nil, or_false] at ha
      rcases ha with rfl | rfl
      · exfalso
        rw [hpmk, ← hgn] at hk
        obtain ⟨kx, hkx, rfl⟩ := List.mem_map.mp hk
        obtain ⟨b, hb, _⟩ := axis_of_arr q2 (hgp kx hkx)
        rw [hn] at hb; simp at hb
      · rw [c3.marg, hleaf] at hk; exact hk)
    (by
      intro a ha k hk hu
      simp only [List.mem_cons, List.not_mem_nil, or_false] at ha
      rcases ha with rfl | rfl
      · rw [hpc] at hk; simp at hk
      · exfalso
        rw [hck] at hk
        exact hu prior (by simp) (by rw [hpmk]; exact hk))
  have hJp : ∀ k ∈ prior.keylist, J.values k = prior.values k := P.values prior (by simp)
  have hJl : ∀ k ∈ like.keylist, J.values k = like.values k := P.values like (by simp)
  have hJm : J.marg.keys = D.roots.map Drawn.name ++ [x] := by
    rw [P.marg]
    simp only [List.flatMap_cons, List.flatMap_nil, List.append_nil]
    show Dict.keys (prior.marg ++ like.marg) = _
    rw [Dict.keys, List.map_append]
    show Dict.keys prior.marg ++ Dict.keys like.marg = _
    rw [hpmk, c3.marg, hleaf]
  have hJc : J.cond = [] := by
    rw [List.eq_nil_iff_forall_not_mem]
    intro kt hkt
    obtain ⟨⟨a, ha, hk⟩, hu⟩ := (P.cond kt).mp hkt
    simp only [List.mem_cons, List.not_mem_nil, or_false] at ha
    rcases ha with rfl | rfl
    · rw [hpc] at hk; simp at hk
    · refine hu prior (by simp) ?_
      rw [hpmk, ← hck]
      exact List.mem_map.mpr ⟨kt, hk, rfl⟩
  have hJk : ∀ k, k ∈ J.keylist ↔ k = x ∨ k ∈ D.roots.map Drawn.name := by
    intro k
    have := V.wf.keys k
    rw [hJc, hJm] at this
    simp only [List.mem_append, List.mem_singleton, Dict.keys_nil, List.not_mem_nil, or_false] at this
    rw [or_comm]; exact this
  have hJx : J.values x = some (.setint data.length) := by rw [hJl x ((hlk x).mpr (.inl rfl)), hxv]
  have hJxa : J.axis x = none := axis_of_scalar V.wf rfl (by simp) hJx
  have hOG : OnGrid J grids := by
    refine ⟨by rw [hgn]; exact hnR, ?_, ?_⟩
    · intro kx hkx
      left
      rw [hJl kx.1 ((hlk _).mpr (.inr (by rw [← hgn]; exact List.mem_map_of_mem hkx))), hgv kx hkx]
    · intro k hk
      rw [hgn] at hk
      by_cases hkx : k = x
      · subst hkx
        exact ⟨hJxa, fun j => by simp [Spec.pointAt, hJx]⟩
      · have hnk : k ∉ J.keylist := by rw [hJk]; tauto
        refine ⟨?_, pointAt_none hnk⟩
        by_contra hne
        obtain ⟨a, ha⟩ := Option.ne_none_iff_exists'.mp hne
        obtain ⟨s, xs, _, hget, _⟩ := V.wf.axisAt ha
        exact hnk (Dict.mem_keys_of_get? hget)
  set W := Spec.posteriorWeight D.roots g f x data with hW
  have hJat : ∀ j ∈ idx J.shape, J.at j = W (Spec.pointAt J j) := by
    intro j hj
    obtain ⟨i1, hi1, hag1⟩ := (P.index j hj prior (by simp)).exists
    obtain ⟨i2, hi2, hag2⟩ := (P.index j hj like (by simp)).exists
    rw [P.entry j hj [i1, i2] (.cons ⟨hi1, hag1⟩ (.cons ⟨hi2, hag2⟩ .nil))]
    simp only [List.zipWith_cons_cons, List.zipWith_nil_left, List.prod_cons, List.prod_nil, mul_one]
    rw [prior_at p3 (fun p hp => by obtain ⟨xs, _, h1, h2⟩ := hpx p hp; exact ⟨xs, h1, h2⟩) q2
      (by rw [p2]; exact q3) hi1, p1, hlike i2 hi2, hW, Spec.posteriorWeight]
    congr 1
    · refine joint_prior q2 V.wf ?_ hag1
      intro v hv
      have hk := (hpk v.name).mpr (List.mem_map_of_mem hv)
      exact ⟨hk, (hJp _ hk).symm⟩
    · congr 2
      funext y
      congr 1
      funext k
      by_cases hkx : k = x
      · subst hkx; simp
      · rw [Function.update_of_ne hkx, Function.update_of_ne hkx]
        by_cases hk : k ∈ like.keylist
        · exact pointAt_congr c3.wf V.wf (hJl k hk).symm (hag2 k)
        · rw [pointAt_none hk, pointAt_none (by rw [hJk]; rw [hlk] at hk; exact hk)]
  obtain ⟨post, b1, b2, b3, b4, b5, b6⟩ := bayes_ok j1 V ps'
  have hpt : ∀ j, Spec.pointAt post j = Spec.pointAt J j := pointAt_same b3.values b4
  have hmass : ∀ i ∈ idx J.shape, Spec.massGiven J [x] i = ((Spec.gridPoints grids).map W).sum := by
    intro i hi
    rw [massGiven_grid (G := grids) (H := []) V.wf V.own (by rw [List.append_nil]; exact hOG) ?_ hJat hi]
    · congr 1
      apply List.map_congr_left
      intro φ hφ
      congr 1
      funext k
      unfold Spec.joined
      split
      · rfl
      · rename_i hk
        obtain ⟨c, _, rfl⟩ := exists_gridPoint hOG.nodup hφ
        rw [gridPoint_of_not_mem hk, (hOG.others k hk).2]
    · intro k hk
      rw [hJc]
      simp only [List.mem_singleton, Dict.keys_nil, List.not_mem_nil, or_false]
      constructor
      · rintro rfl; exact absurd hJxa hk
      · intro hkg; exact absurd (hOG.others k hkg).1 hk
  have hent : ∀ j ∈ idx J.shape, post.at j =
      W (Spec.pointAt J j) / max npz ((Spec.gridPoints grids).map W).sum := by
    intro j hj
    rw [b6 j hj, hmass j hj, hJat j hj]
  refine ⟨post, ?_, b2, ?_, ?_, ?_, ?_, ?_, ?_, ?_⟩
  · have hc2 : D.call fmt values (.bool true) = .ok like := by
      rw [(C73_iid_true D values).1, hleaf]; exact c2
    simp only [SDep.infer, hc2, v1, q1, bind, Except.bind, hleaf, b1]
  · rw [b3.marg]
    show Dict.keys _ = _
    rw [Dict.keys_filter (fun k => decide (k ∉ [x])) J.marg, hJm, List.filter_append]
    rw [List.filter_eq_self.mpr, List.filter_eq_nil_iff.mpr]
    · simp
    · simp
    · intro k hk
      simp only [List.mem_singleton, decide_eq_true_eq]
      rintro rfl
      exact hxR hk
  · have hnd : post.cond.keys.Nodup := b2.condSide.1
    have hmem : ∀ k, k ∈ post.cond.keys ↔ k = x := by
      intro k
      constructor
      · intro hk
        obtain ⟨kt, hkt, rfl⟩ := List.mem_map.mp hk
        rcases (b3.cond kt).mp hkt with h | h
        · rw [hJc] at h; simp at h
        · simpa using h.2
      · rintro rfl
        have : k ∈ J.marg.keys := by rw [hJm]; simp
        obtain ⟨kt, hkt, rfl⟩ := List.mem_map.mp this
        exact List.mem_map.mpr ⟨kt, (b3.cond kt).mpr (.inr ⟨hkt, by simp⟩), rfl⟩
    exact List.perm_singleton.mp ((List.perm_ext_iff_of_nodup hnd (by simp)).mpr (by simpa using hmem))
  · rw [b3.values]; exact hJx
  · intro kx hkx
    rw [b3.values]
    rcases hOG.values kx hkx with h | ⟨y, _, h⟩
    · exact h
    · rw [hJl kx.1 ((hlk _).mpr (.inr (by rw [← hgn]; exact List.mem_map_of_mem hkx))), hgv kx hkx] at h
      simp at h
  · intro θ
    rw [points_iff V.wf V.own hOG θ, b5]
    simp only [hpt]
  · intro j hj
    rw [b5] at hj
    rw [hent j hj, hpt]
  · rw [b5, Finset.sum_congr rfl hent, ← Finset.sum_div]
    congr 1
    rw [grid_sum grids (idx J.shape) (fun t => J.read t) hOG.nodup
      (fun t ht => read_lt V.wf hOG ht) (fun c hc => entry_unique V.wf V.own hOG hc)]
    exact Finset.sum_congr rfl fun t ht => by rw [pointAt_grid V.wf hOG ht]

/-- C94, exact inference on a grid: with independent observations of one variable and a grid of
values for every parameter, the posterior probability of every point of the grid is the prior
times the product of the probabilities of the observations, divided by the sum of these over the
grid; it sums to one.  Missing: evidence below the smallest normal float (`C94_underflow`,
`C94_claim_fails`), several observed variables, other scales, variables of float type. -/
theorem C94_posterior_partial {D : SDep} {x : Str} {data : List ℚ} {values : Dict Str Req}
    {grids : List (Str × List ℚ)} {f : (Str → Option ℚ) → ℝ} {g : Str → ℚ → ℝ}
    (S : Spec.Study fmt D x data values grids) (hf : Spec.Pointwise D.prob f)
    (hg : ∀ v ∈ D.roots, Spec.HasPrior fmt v (g v.name)) (hs : D.pscale = .lin 1)
    (he : npz ≤ ((Spec.gridPoints grids).map (Spec.posteriorWeight D.roots g f x data)).sum) :
    ∃ post, D.infer fmt values (.bool true) = .ok post ∧ post.WF fmt ∧
      Spec.Posterior D x data grids (Spec.posteriorWeight D.roots g f x data)
        ((Spec.gridPoints grids).map (Spec.posteriorWeight D.roots g f x data)).sum post ∧
      ∑ j ∈ idx post.shape, post.at j = 1 := by
  obtain ⟨post, h1, h2, h3⟩ := infer_core S hf hg hs
  rw [max_eq_right he] at h3
  refine ⟨post, h1, h2, h3, ?_⟩
  rw [h3.total, div_self (lt_of_lt_of_le npz_pos he).ne']

/-- C94: if the evidence is below the smallest normal float the weights are divided by that
float instead, and what is returned does not sum to one. -/
theorem C94_underflow {D : SDep} {x : Str} {data : List ℚ} {values : Dict Str Req}
    {grids : List (Str × List ℚ)} {f : (Str → Option ℚ) → ℝ} {g : Str → ℚ → ℝ}
    (S : Spec.Study fmt D x data values grids) (hf : Spec.Pointwise D.prob f)
    (hg : ∀ v ∈ D.roots, Spec.HasPrior fmt v (g v.name)) (hs : D.pscale = .lin 1)
    (he : ((Spec.gridPoints grids).map (Spec.posteriorWeight D.roots g f x data)).sum < npz) :
    ∃ post, D.infer fmt values (.bool true) = .ok post ∧ post.WF fmt ∧
      Spec.Posterior D x data grids (Spec.posteriorWeight D.roots g f x data) npz post ∧
      ∑ j ∈ idx post.shape, post.at j < 1 := by
  obtain ⟨post, h1, h2, h3⟩ := infer_core S hf hg hs
  rw [max_eq_left he.le] at h3
  refine ⟨post, h1, h2, h3, ?_⟩
  rw [h3.total, div_lt_one npz_pos]
  exact he

/-- C94 in full: whatever the evidence, as long as it is positive. -/
def C94_claim : Prop :=
  ∀ (fmt : Val → Str) (D : SDep) (x : Str) (data : List ℚ) (values : Dict Str Req)
    (grids : List (Str × List ℚ)) (f : (Str → Option ℚ) → ℝ) (g : Str → ℚ → ℝ),
    Spec.Study fmt D x data values grids → Spec.Pointwise D.prob f →
    (∀ v ∈ D.roots, Spec.HasPrior fmt v (g v.name)) → D.pscale = .lin 1 →
    0 < ((Spec.gridPoints grids).map (Spec.posteriorWeight D.roots g f x data)).sum →
    ∃ post, D.infer fmt values (.bool true) = .ok post ∧ ∑ j ∈ idx post.shape, post.at j = 1

/-! ### Bayes' rule -/

/-- The values a variable may take. -/
def Spec.choices : VArg ℚ → List ℚ
  | .scalar x => [x]
  | .array xs => xs

/-- Roots and dependence are called with the same requests for the roots, to which every root
answers with several values. -/
structure Spec.Consulted (fmt : Val → Str) (D : SDep) (prior values : Dict Str Req)
    (grids leafs : List (Str × List ℚ)) : Prop where
  dep : Spec.Dep fmt D
  asks : Spec.Asks D values
  roots : D.roots ≠ []
  grids : List.Forall₂ (fun (v : Drawn) kx => kx.1 = v.name ∧ Spec.Answers values v (.array kx.2))
    D.roots grids
  leafs : List.Forall₂ (fun (v : Drawn) kx => kx.1 = v.name ∧
    ∃ x, Spec.Answers values v x ∧ kx.2 = Spec.choices x) D.leafs leafs
  keys : prior.keys.Nodup
  known : ∀ k ∈ prior.keys, k ∈ D.roots.map Drawn.name
  same : ∀ v ∈ D.roots, Spec.request prior v.name = Spec.request values v.name

/-- `post` is the distribution of the roots given the leafs by Bayes' rule: every weight is
divided by the sum of the weights over all values of the roots, with the same values of the
leafs. -/
structure Spec.Inverted (D : SDep) (grids leafs : List (Str × List ℚ))
    (W : (Str → Option ℚ) → ℝ) (Z : ℝ → ℝ) (post : PD) : Prop where
  marg : post.marg.keys = D.roots.map Drawn.name
  cond : post.cond.keys.Perm (D.leafs.map Drawn.name)
  points : ∀ θ, θ ∈ Spec.gridPoints (grids ++ leafs) ↔ ∃ j ∈ idx post.shape, Spec.pointAt post j = θ
  entry : ∀ j ∈ idx post.shape, post.at j = W (Spec.pointAt post j) /
    Z ((Spec.gridPoints grids).map fun φ => W (Spec.joined grids φ (Spec.pointAt post j))).sum

theorem forall₂_named {R : Drawn → Str × List ℚ → Prop} {vs : List Drawn} {G : List (Str × List ℚ)}
    (h : List.Forall₂ (fun (v : Drawn) kx => kx.1 = v.name ∧ R v kx) vs G) :
    G.map Prod.fst = vs.map Drawn.name ∧
    (∀ v ∈ vs, ∃ kx ∈ G, kx.1 = v.name ∧ R v kx) ∧ (∀ kx ∈ G, ∃ v ∈ vs, kx.1 = v.name ∧ R v kx) := by
  induction h with
  | nil => simp
  | cons hab _ ih =>
    obtain ⟨h1, h2, h3⟩ := ih
    refine ⟨by simp [h1, hab.1], ?_, ?_⟩
    · intro v hv
      rcases List.mem_cons.mp hv with rfl | hv
      · exact ⟨_, by simp, hab⟩
      · obtain ⟨kx, hkx, h⟩ := h2 v hv
        exact ⟨kx, by simp [hkx], h⟩
    · intro kx hkx
      rcases List.mem_cons.mp hkx with rfl | hkx
      · exact ⟨_, by simp, hab⟩
      · obtain ⟨v, hv, h⟩ := h3 kx hkx
        exact ⟨v, by simp [hv], h⟩

theorem rule_core {D : SDep} {prior values : Dict Str Req} {grids leafs : List (Str × List ℚ)}
    {f : (Str → Option ℚ) → ℝ} {g : Str → ℚ → ℝ} {c : ℝ}
    (S : Spec.Consulted fmt D prior values grids leafs) (hf : Spec.Pointwise D.prob f)
    (hg : ∀ v ∈ D.roots, Spec.HasPrior fmt v (g v.name)) (hs : D.pscale = .lin c) (hc : 0 < c) :
    ∃ post, D.bayesRule fmt prior values = .ok post ∧ post.WF fmt ∧
      Spec.Inverted D grids leafs (fun θ => Spec.prior D.roots g θ * (c * f θ)) (max npz) post := by
  classical
  obtain ⟨hgn, hgr, hgk⟩ := forall₂_named S.grids
  obtain ⟨hln, hlr, hlk'⟩ := forall₂_named S.leafs
  have hD := S.dep
  have hnLR : ((D.leafs ++ D.roots).map Drawn.name).Nodup := (hD.all.map _).nodup_iff.mpr hD.nodup
  rw [List.map_append, List.nodup_append] at hnLR
  obtain ⟨hnL, hnR, hdis⟩ := hnLR
  have hroots : ∀ v ∈ D.roots, v ∈ D.vars := fun v hv =>
    hD.all.mem_iff.mp (List.mem_append_right _ hv)
  have hleafs : ∀ v ∈ D.leafs, v ∈ D.vars := fun v hv =>
    hD.all.mem_iff.mp (List.mem_append_left _ hv)
  obtain ⟨pts, L, R, vals, dims, E⟩ := evald hD S.asks
  obtain ⟨arr, d, h1, _, h2, c1, _, _, h6, _⟩ := sd_called hD E hf
  have hcall : D.call fmt values (.bool false) = .ok d := by
    simp only [SDep.call, E.parse, E.eval, h1, bind, Except.bind, SDep.evalIid, SDep.iidIter, if_true]
    exact h2
  have c3 := likes_called hD c1 (sd_pos E h6)
  have hne : ∀ v ∈ D.roots, ∀ xs, Spec.Answers values v (.array xs) → xs ≠ [] := by
    intro v hv xs hx
    obtain ⟨y, y1, y2⟩ := S.asks.answers v (hroots v hv)
    rw [answers_unique y1 hx] at y2
    exact List.length_pos_iff.mp (y2 xs.length (by simp [VArg.sizes]))
  -- the prior
  have hpriF : ∀ l : List Drawn, (∀ v ∈ l, v ∈ D.roots) → ∃ ds : List PD,
      List.Forall₂ (fun (v : Drawn) q => ∃ xs, (v.name, xs) ∈ grids ∧ Spec.Answers values v (.array xs) ∧
        v.var.call fmt (Spec.request prior v.name) v.r v.perm = .ok q ∧
        (∃ c : ℝ, 0 < c ∧ q.pscale = .lin c) ∧
        ∀ (i : ℕ) (y : ℚ), xs[i]? = some y → q.at [i] = g v.name y) l ds := by
    intro l
    induction l with
    | nil => exact fun _ => ⟨[], .nil⟩
    | cons v l ih =>
      intro hl
      obtain ⟨ds, hds⟩ := ih fun v hv => hl v (by simp [hv])
      have hv := hl v (by simp)
      obtain ⟨⟨k, xs⟩, hkx, e1, e2⟩ := hgr v hv
      simp only at e1 e2
      subst e1
      obtain ⟨q, q1, q2, q3⟩ := hg v hv (Spec.request prior v.name) xs (hne v hv xs e2)
        (by rw [S.same v hv]; exact e2)
      exact ⟨q :: ds, .cons ⟨xs, hkx, e2, q1, q2, q3⟩ hds⟩
  obtain ⟨ds, hds⟩ := hpriF D.roots fun _ h => h
  have hdsl : ∀ q ∈ ds, ∃ c : ℝ, 0 < c ∧ q.pscale = .lin c := by
    intro q hq
    obtain ⟨i, hi, rfl⟩ := List.mem_iff_getElem.mp hq
    obtain ⟨xs, _, _, _, h, _⟩ :=
      List.forall₂_iff_get.mp hds |>.2 i (by rw [hds.length_eq]; exact hi) hi
    exact h
  have hcalls : List.Forall₂ (fun (v : Drawn) q =>
      v.var.call fmt (Spec.request prior v.name) v.r v.perm = .ok q) D.roots ds :=
    hds.imp fun v q h => by obtain ⟨_, _, _, h, _⟩ := h; exact h
  obtain ⟨ps, p1, p2, p3⟩ := parts_of_calls (fun v hv => hD.good v (hroots v hv)) hcalls
  have hpx : ∀ p ∈ ps, ∃ xs, (p.v.name, xs) ∈ grids ∧ Spec.Answers values p.v (.array xs) ∧
      p.x = .array xs ∧ ∀ (i : ℕ) (y : ℚ), xs[i]? = some y → p.d.at [i] = g p.v.name y := by
    have key : ∀ (l : List Part), (∀ p ∈ l, p ∈ ps) →
        List.Forall₂ (fun (v : Drawn) q => ∃ xs, (v.name, xs) ∈ grids ∧
          Spec.Answers values v (.array xs) ∧
          v.var.call fmt (Spec.request prior v.name) v.r v.perm = .ok q ∧
          (∃ c : ℝ, 0 < c ∧ q.pscale = .lin c) ∧
          ∀ (i : ℕ) (y : ℚ), xs[i]? = some y → q.at [i] = g v.name y) (l.map Part.v) (l.map Part.d) →
        ∀ p ∈ l, ∃ xs, (p.v.name, xs) ∈ grids ∧ Spec.Answers values p.v (.array xs) ∧
          p.x = .array xs ∧ ∀ (i : ℕ) (y : ℚ), xs[i]? = some y → p.d.at [i] = g p.v.name y := by
      intro l hl h
      induction l with
      | nil => simp
      | cons p l ih =>
        rcases h with _ | ⟨hab, h⟩
        intro p' hp'
        rcases List.mem_cons.mp hp' with rfl | hp'
        · obtain ⟨xs, h1, h2, _, _, h3⟩ := hab
          refine ⟨xs, h1, h2, ?_, h3⟩
          have hp := hl p' (by simp)
          have hv : p'.v ∈ D.roots := by rw [← p1]; exact List.mem_map_of_mem hp
          have he := (p3 p' hp).eval
          rw [← (p3 p' hp).req, S.same p'.v hv] at he
          exact answers_unique he h2
        · exact ih (fun p hp => hl p (by simp [hp])) h p' hp'
    exact key ps (fun _ h => h) (by rw [p1, p2]; exact hds)
  have hpos : ∀ p ∈ ps, p.d.Pos := by
    intro p hp
    obtain ⟨xs, _, hx, hpx', _⟩ := hpx p hp
    have hv : p.v ∈ D.roots := by rw [← p1]; exact List.mem_map_of_mem hp
    rw [PD.Pos, (p3 p hp).dshape, hpx']
    simpa [VArg.sizes] using List.length_pos_iff.mpr (hne p.v hv xs hx)
  have C : Spec.Calls fmt D.roots prior ds := by
    refine ⟨S.roots, fun v hv => hD.good v (hroots v hv), hnR, S.keys, S.known, hcalls, ?_⟩
    intro q hq
    rw [← p2] at hq
    obtain ⟨p, hp, rfl⟩ := List.mem_map.mp hq
    exact hpos p hp
  obtain ⟨pr, q1, q2, q3, q4⟩ := C63_linear_partial C fun q hq => by
    obtain ⟨c, _, hc⟩ := hdsl q hq
    rw [hc]; rfl
  have hpl : ∃ c : ℝ, 0 < c ∧ pr.pscale = .lin c := by
    refine ⟨_, ?_, q4⟩
    apply List.prod_pos
    intro y hy
    obtain ⟨q, hq, rfl⟩ := List.mem_map.mp hy
    obtain ⟨c, hc, he⟩ := hdsl q hq
    rw [he]; exact hc
  have hpd : ∀ p ∈ ps, d.values p.v.name = some p.x.toVal := by
    intro p hp
    obtain ⟨xs, _, hx, hpx', _⟩ := hpx p hp
    have hv : p.v ∈ D.roots := by rw [← p1]; exact List.mem_map_of_mem hp
    obtain ⟨y, y1, y2⟩ := c3.values p.v hv
    rw [y2, answers_unique y1 hx, hpx']
  obtain ⟨F, G⟩ := factors_of_parts hD c3 S.roots p1 p3 hpos hpd (by
    intro p hp
    obtain ⟨xs, _, hx, hpx', _⟩ := hpx p hp
    have hv : p.v ∈ D.roots := by rw [← p1]; exact List.mem_map_of_mem hp
    obtain ⟨y, y1, y2⟩ := get?_texts hnR c3.cond p.v hv
    rw [answers_unique y1 hx] at y2
    rw [y2, hpx', ← (p3 p hp).req, S.same p.v hv]; rfl) q2 (by rw [p2]; exact q3)
  obtain ⟨hpc, hpm⟩ := prior_marg p3 (by rw [p2]; exact q3)
  have hpmk : pr.marg.keys = D.roots.map Drawn.name := by
    rw [hpm, keys_sideOf, ← p1, List.map_map]; rfl
  -- the joint distribution
  have hck : d.cond.keys = D.roots.map Drawn.name := keys_texts c3.cond
  have hdk : ∀ k, k ∈ d.keylist ↔ k ∈ D.leafs.map Drawn.name ∨ k ∈ D.roots.map Drawn.name := by
    intro k
    have := c3.wf.keys k
    rw [c3.marg, hck] at this
    exact this
  have hpk : ∀ k, k ∈ pr.keylist ↔ k ∈ D.roots.map Drawn.name := by
    intro k
    have := q2.keys k
    rw [hpc, hpmk] at this
    simpa using this
  have hgv : ∀ kx ∈ grids, d.values kx.1 = some (.arr [kx.2.length] kx.2) := by
    intro kx hkx
    obtain ⟨v, hv, h1, h2⟩ := hgk kx hkx
    obtain ⟨y, y1, y2⟩ := c3.values v hv
    rw [h1, y2, answers_unique y1 h2]; rfl
  have hgp : ∀ kx ∈ grids, pr.values kx.1 = some (.arr [kx.2.length] kx.2) := by
    intro kx hkx
    obtain ⟨v, hv, h1, _⟩ := hgk kx hkx
    have hv' := hv
    rw [← p1] at hv'
    obtain ⟨p, hp, rfl⟩ := List.mem_map.mp hv'
    obtain ⟨xs, hxs, _, hpx', _⟩ := hpx p hp
    have hnd : (grids.map Prod.fst).Nodup := by rw [hgn]; exact hnR
    have : kx = (p.v.name, xs) := List.inj_on_of_nodup_map hnd hkx hxs h1
    rw [h1, q3.values p.d (by rw [← p2]; exact List.mem_map_of_mem hp) p.v.name
      (by rw [(p3 p hp).keylist]; simp), (p3 p hp).values, hpx', this]
    rfl
  obtain ⟨J, j1, P, V, ps'⟩ := product_dividend (keys := D.leafs.map Drawn.name) F G (by
      intro a ha
      simp only [List.mem_cons, List.not_mem_nil, or_false] at ha
      rcases ha with rfl | rfl
      · exact hpl
      · exact ⟨c, hc, by rw [c1.pscale, hs]⟩) (by simpa using hD.some)
    (by
      intro k hk
      exact ⟨d, by simp, by rw [c3.marg]; exact hk⟩)
    (by
      intro a ha k hk hn
      simp only [List.mem_cons, List.not_mem_nil, or_false] at ha
      rcases ha with rfl | rfl
      · exfalso
        rw [hpmk, ← hgn] at hk
        obtain ⟨kx, hkx, rfl⟩ := List.mem_map.mp hk
        obtain ⟨b, hb, _⟩ := axis_of_arr q2 (hgp kx hkx)
        rw [hn] at hb; simp at hb
      · rw [c3.marg] at hk; exact hk)
    (by
      intro a ha k hk hu
      simp only [List.mem_cons, List.not_mem_nil, or_false] at ha
      rcases ha with rfl | rfl
      · rw [hpc] at hk; simp at hk
      · exfalso
        rw [hck] at hk
        exact hu pr (by simp) (by rw [hpmk]; exact hk))
  have hJp : ∀ k ∈ pr.keylist, J.values k = pr.values k := P.values pr (by simp)
  have hJl : ∀ k ∈ d.keylist, J.values k = d.values k := P.values d (by simp)
  have hJm : J.marg.keys = D.roots.map Drawn.name ++ D.leafs.map Drawn.name := by
    rw [P.marg]
    simp only [List.flatMap_cons, List.flatMap_nil, List.append_nil]
    show Dict.keys (pr.marg ++ d.marg) = _
    rw [Dict.keys, List.map_append]
    show Dict.keys pr.marg ++ Dict.keys d.marg = _
    rw [hpmk, c3.marg]
  have hJc : J.cond = [] := by
    rw [List.eq_nil_iff_forall_not_mem]
    intro kt hkt
    obtain ⟨⟨a, ha, hk⟩, hu⟩ := (P.cond kt).mp hkt
    simp only [List.mem_cons, List.not_mem_nil, or_false] at ha
    rcases ha with rfl | rfl
    · rw [hpc] at hk; simp at hk
    · refine hu pr (by simp) ?_
      rw [hpmk, ← hck]
      exact List.mem_map.mpr ⟨kt, hk, rfl⟩
  have hJk : ∀ k, k ∈ J.keylist ↔ k ∈ D.roots.map Drawn.name ∨ k ∈ D.leafs.map Drawn.name := by
    intro k
    have := V.wf.keys k
    rw [hJc, hJm] at this
    simpa [List.mem_append] using this
  have hOG : OnGrid J (grids ++ leafs) := by
    refine ⟨?_, ?_, ?_⟩
    · rw [List.map_append, hgn, hln, List.nodup_append]
      exact ⟨hnR, hnL, fun a ha b hb h => hdis b hb a ha h.symm⟩
    · intro kx hkx
      rcases List.mem_append.mp hkx with hkx | hkx
      · left
        rw [hJl kx.1 ((hdk _).mpr (.inr (by rw [← hgn]; exact List.mem_map_of_mem hkx))), hgv kx hkx]
      · obtain ⟨v, hv, e1, y, e2, e3⟩ := hlk' kx hkx
        obtain ⟨y', y1, y2, _⟩ := c1.values v (hleafs v hv)
        rw [answers_unique y1 e2] at y2
        rw [hJl kx.1 ((hdk _).mpr (.inl (by rw [e1]; exact List.mem_map_of_mem hv))), e1, y2]
        rcases y with y | ys
        · exact .inr ⟨y, e3, rfl⟩
        · left; rw [e3]; rfl
    · intro k hk
      rw [List.map_append, hgn, hln, List.mem_append, ← hJk] at hk
      refine ⟨?_, pointAt_none hk⟩
      by_contra hne
      obtain ⟨a, ha⟩ := Option.ne_none_iff_exists'.mp hne
      obtain ⟨s, xs, _, hget, _⟩ := V.wf.axisAt ha
      exact hk (Dict.mem_keys_of_get? hget)
  set W : (Str → Option ℚ) → ℝ := fun θ => Spec.prior D.roots g θ * (c * f θ) with hW
  have hJat : ∀ j ∈ idx J.shape, J.at j = W (Spec.pointAt J j) := by
    intro j hj
    obtain ⟨i1, hi1, hag1⟩ := (P.index j hj pr (by simp)).exists
    obtain ⟨i2, hi2, hag2⟩ := (P.index j hj d (by simp)).exists
    rw [P.entry j hj [i1, i2] (.cons ⟨hi1, hag1⟩ (.cons ⟨hi2, hag2⟩ .nil))]
    simp only [List.zipWith_cons_cons, List.zipWith_nil_left, List.prod_cons, List.prod_nil, mul_one]
    rw [prior_at p3 (fun p hp => by obtain ⟨xs, _, _, h1, h2⟩ := hpx p hp; exact ⟨xs, h1, h2⟩) q2
      (by rw [p2]; exact q3) hi1, p1, c1.entry i2 hi2, hs]
    simp only [hW, Spec.value]
    congr 1
    · refine joint_prior q2 V.wf ?_ hag1
      intro v hv
      have hk := (hpk v.name).mpr (List.mem_map_of_mem hv)
      exact ⟨hk, (hJp _ hk).symm⟩
    · congr 2
      funext k
      by_cases hk : k ∈ d.keylist
      · exact pointAt_congr c3.wf V.wf (hJl k hk).symm (hag2 k)
      · rw [pointAt_none hk, pointAt_none (by rw [hJk, or_comm, ← hdk]; exact hk)]
  obtain ⟨post, b1, b2, b3, b4, b5, b6⟩ := bayes_ok j1 V ps'
  have hpt : ∀ j, Spec.pointAt post j = Spec.pointAt J j := pointAt_same b3.values b4
  refine ⟨post, ?_, b2, ?_, ?_, ?_, ?_⟩
  · simp only [SDep.bayesRule, hcall, q1, bind, Except.bind, b1]
  · rw [b3.marg]
    show Dict.keys _ = _
    rw [Dict.keys_filter (fun k => decide (k ∉ D.leafs.map Drawn.name)) J.marg, hJm, List.filter_append]
    rw [List.filter_eq_self.mpr, List.filter_eq_nil_iff.mpr]
    · simp
    · intro k hk
      simp only [decide_eq_true_eq, not_not]; exact hk
    · intro k hk
      simp only [decide_eq_true_eq]
      exact fun hk' => hdis k hk' k hk rfl
  · refine (List.perm_ext_iff_of_nodup b2.condSide.1 hnL).mpr ?_
    intro k
    constructor
    · intro hk
      obtain ⟨kt, hkt, rfl⟩ := List.mem_map.mp hk
      rcases (b3.cond kt).mp hkt with h | h
      · rw [hJc] at h; simp at h
      · exact h.2
    · intro hk
      have : k ∈ J.marg.keys := by rw [hJm]; exact List.mem_append_right _ hk
      obtain ⟨kt, hkt, rfl⟩ := List.mem_map.mp this
      exact List.mem_map.mpr ⟨kt, (b3.cond kt).mpr (.inr ⟨hkt, hk⟩), rfl⟩
  · intro θ
    rw [points_iff V.wf V.own hOG θ, b5]
    simp only [hpt]
  · intro j hj
    rw [b5] at hj
    rw [b6 j hj, hJat j hj, hpt, massGiven_grid V.wf V.own hOG ?_ hJat hj]
    intro k hk
    rw [hJc, hgn]
    simp only [Dict.keys_nil, List.not_mem_nil, or_false]
    constructor
    · exact fun h h' => hdis k h k h' rfl
    · intro h
      have hm : k ∈ (grids ++ leafs).map Prod.fst := by
        by_contra hm
        exact hk (hOG.others k hm).1
      rw [List.map_append, hgn, hln, List.mem_append] at hm
      exact hm.resolve_left h

/-- C94, Bayes' rule: the distribution of the roots times the conditional distribution of the
leafs, divided by the marginal of the leafs, is the conditional distribution of the roots given
the leafs.  Missing: marginals below the smallest normal float, roots given single numbers, log
scales, variables of float type. -/
theorem C94_rule_partial {D : SDep} {prior values : Dict Str Req} {grids leafs : List (Str × List ℚ)}
    {f : (Str → Option ℚ) → ℝ} {g : Str → ℚ → ℝ} {c : ℝ}
    (S : Spec.Consulted fmt D prior values grids leafs) (hf : Spec.Pointwise D.prob f)
    (hg : ∀ v ∈ D.roots, Spec.HasPrior fmt v (g v.name)) (hs : D.pscale = .lin c) (hc : 0 < c)
    (he : ∀ θ ∈ Spec.gridPoints (grids ++ leafs), npz ≤ ((Spec.gridPoints grids).map fun φ =>
      Spec.prior D.roots g (Spec.joined grids φ θ) * (c * f (Spec.joined grids φ θ))).sum) :
    ∃ post, D.bayesRule fmt prior values = .ok post ∧ post.WF fmt ∧
      Spec.Inverted D grids leafs (fun θ => Spec.prior D.roots g θ * (c * f θ)) id post := by
  obtain ⟨post, h1, h2, h3⟩ := rule_core S hf hg hs hc
  refine ⟨post, h1, h2, h3.marg, h3.cond, h3.points, ?_⟩
  intro j hj
  rw [h3.entry j hj, max_eq_right (he _ ((h3.points _).mpr ⟨j, hj, rfl⟩))]
  rfl

/-! ### Two dice -/

/-- Observations of the first die, two values of the second. -/
def diceData (data : List ℚ) : Dict Str Req := [(['x'], .array data), (['y'], .array [1, 2])]

theorem diceData_study {data : List ℚ} (h : data ≠ []) :
    Spec.Study (fun _ => ['v']) (twoDice (.lin 1)) ['x'] data (diceData data) [(['y'], [1, 2])] where
  dep := twoDice_dep (lin_stable one_ne_zero)
  leaf := ⟨⟨die, 0, []⟩, rfl, rfl, rfl⟩
  observed := h
  roots := by simp [twoDice]
  keys := by simp [diceData, Dict.keys]
  known := by simp [diceData, Dict.keys, twoDice, Drawn.name, die, dieY]
  grids := .cons ⟨rfl, rfl, by simp,
    by simp [diceData, Drawn.name, dieY, Spec.request, Dict.get?]⟩ .nil
  text := fun n => setint_entry (.inl rfl) n

theorem twoDice_prior (s : PScale) : ∀ v ∈ (twoDice s).roots, Spec.HasPrior (fun _ => ['v']) v
    fun x => if x ∈ ([1, 2, 3] : List ℚ) then 1 * (1 / 3) else 0 := by
  intro v hv
  simp only [twoDice, List.mem_cons, List.not_mem_nil, or_false] at hv
  subst hv
  exact prior_number (dieY_named _ rfl) rfl one_pos (by simp [dieY, evalPscale])

theorem diceData_weight (data : List ℚ) :
    ((Spec.gridPoints [(['y'], [1, 2])]).map (Spec.posteriorWeight (twoDice (.lin 1)).roots
      (fun _ x => if x ∈ ([1, 2, 3] : List ℚ) then 1 * (1 / 3) else 0) agreeing ['x'] data)).sum =
    1 / 3 * (data.map fun x => if x = 1 then (1 / 2 : ℝ) else 1 / 4).prod +
    1 / 3 * (data.map fun x => if x = 2 then (1 / 2 : ℝ) else 1 / 4).prod := by
  simp [Spec.gridPoints, Spec.posteriorWeight, Spec.prior, twoDice, agreeing, Drawn.name, dieY,
    Function.update]

/-- `C94_posterior_partial` is not vacuous: three observations. -/
example : ∃ post, (twoDice (.lin 1)).infer (fun _ => ['v']) (diceData [1, 1, 2]) (.bool true) = .ok post ∧
    ∑ j ∈ idx post.shape, post.at j = 1 := by
  obtain ⟨post, h1, _, _, h2⟩ := C94_posterior_partial (diceData_study (data := [1, 1, 2]) (by simp))
    (entrywise_pointwise _) (g := fun _ x => if x ∈ ([1, 2, 3] : List ℚ) then 1 * (1 / 3) else 0)
    (twoDice_prior _) rfl (by rw [diceData_weight]; norm_num [npz])
  exact ⟨post, h1, h2⟩

/-- The evidence of 1100 equal observations is below the smallest normal float. -/
theorem diceData_small : 1 / 3 * ((List.replicate 1100 (1 : ℚ)).map fun x =>
      if x = 1 then (1 / 2 : ℝ) else 1 / 4).prod +
    1 / 3 * ((List.replicate 1100 (1 : ℚ)).map fun x => if x = 2 then (1 / 2 : ℝ) else 1 / 4).prod <
    npz := by
  rw [List.map_replicate, List.map_replicate, List.prod_replicate, List.prod_replicate, npz]
  have e1 : (1 / 2 : ℝ) ^ 1100 = ((1 / 2) ^ 11) ^ 100 := by rw [← pow_mul]
  have e2 : (1 / 4 : ℝ) ^ 1100 = ((1 / 4) ^ 11) ^ 100 := by rw [← pow_mul]
  simp only [if_true, show (1 : ℚ) ≠ 2 by norm_num, if_false, e1, e2]
  norm_num

/-- `C94_underflow` is not vacuous. -/
example : ∃ post, (twoDice (.lin 1)).infer (fun _ => ['v']) (diceData (List.replicate 1100 1))
    (.bool true) = .ok post ∧ ∑ j ∈ idx post.shape, post.at j < 1 := by
  obtain ⟨post, h1, _, _, h2⟩ := C94_underflow
    (diceData_study (data := List.replicate 1100 1)
      (List.ne_nil_of_length_pos (by rw [List.length_replicate]; norm_num)))
    (entrywise_pointwise _) (g := fun _ x => if x ∈ ([1, 2, 3] : List ℚ) then 1 * (1 / 3) else 0)
    (twoDice_prior _) rfl (by rw [diceData_weight]; exact diceData_small)
  exact ⟨post, h1, h2⟩

/-- The claim fails: 1100 equal throws of a die, each of probability a half or a quarter, have a
probability below the smallest normal float. -/
theorem C94_claim_fails : ¬ C94_claim := by
  intro h
  have S := diceData_study (data := List.replicate 1100 1)
    (List.ne_nil_of_length_pos (by rw [List.length_replicate]; norm_num))
  have hf := entrywise_pointwise agreeing
  obtain ⟨post, h1, h2⟩ := h _ _ _ _ _ _ agreeing
    (fun _ x => if x ∈ ([1, 2, 3] : List ℚ) then 1 * (1 / 3) else 0) S hf (twoDice_prior _) rfl (by
      rw [diceData_weight]
      have : ∀ a : ℚ, 0 < ((List.replicate 1100 (1 : ℚ)).map fun x =>
          if x = a then (1 / 2 : ℝ) else 1 / 4).prod := by
        intro a
        apply List.prod_pos
        intro y hy
        obtain ⟨x, _, rfl⟩ := List.mem_map.mp hy
        split <;> norm_num
      have h1 := this 1
      have h2 := this 2
      positivity)
  obtain ⟨post', h1', _, _, h2'⟩ := C94_underflow S hf
    (g := fun _ x => if x ∈ ([1, 2, 3] : List ℚ) then 1 * (1 / 3) else 0)
    (twoDice_prior _) rfl (by rw [diceData_weight]; exact diceData_small)
  rw [h1] at h1'
  cases h1'
  exact absurd h2 h2'.ne

/-- `C94_rule_partial` is not vacuous: three values of the first die, two of the second. -/
example : ∃ post, (twoDice (.lin 1)).bayesRule (fun _ => ['v']) [(['y'], .array [1, 2])]
    (diceData [1, 2, 3]) = .ok post ∧ post.marg.keys = [['y']] ∧ post.cond.keys.Perm [['x']] := by
  obtain ⟨post, h1, _, h2⟩ := C94_rule_partial (D := twoDice (.lin 1)) (fmt := fun _ => ['v'])
    (prior := [(['y'], .array [1, 2])]) (values := diceData [1, 2, 3])
    (grids := [(['y'], [1, 2])]) (leafs := [(['x'], [1, 2, 3])]) (f := agreeing)
    (g := fun _ x => if x ∈ ([1, 2, 3] : List ℚ) then 1 * (1 / 3) else 0) (c := 1)
    { dep := twoDice_dep (lin_stable one_ne_zero)
      asks := twoDice_asks _ (by simp [diceData, Dict.keys]) (by simp [diceData, Dict.keys])
        (x := .array [1, 2, 3]) rfl (by simp [VArg.sizes]) (y := .array [1, 2]) rfl (by simp [VArg.sizes])
      roots := by simp [twoDice]
      grids := .cons ⟨rfl, rfl⟩ .nil
      leafs := .cons ⟨rfl, .array [1, 2, 3], rfl, rfl⟩ .nil
      keys := by simp [Dict.keys]
      known := by simp [Dict.keys, twoDice, Drawn.name, dieY]
      same := by simp [twoDice, Drawn.name, dieY, diceData, Spec.request, Dict.get?] }
    (entrywise_pointwise _) (twoDice_prior _) rfl one_pos (by
      intro θ _
      simp only [Spec.gridPoints, Spec.prior, twoDice, agreeing, Drawn.name, dieY, Spec.joined,
        Function.update]
      simp
      split <;> split <;> norm_num [npz])
  exact ⟨post, h1, h2.marg, h2.cond⟩

end Probayes
