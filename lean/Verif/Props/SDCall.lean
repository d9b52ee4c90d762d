/-
Property C73 (calling a stochastic dependence, independent observations and joint
distributions).
-/
import Verif.Model.SDCall
import Verif.Props.RFCall
import Verif.Props.PDProd
import Verif.Props.DistOps
import Verif.Props.PDProductRepeat

namespace Probayes

/-- The number an evaluated value has at an index list, by broadcasting. -/
def Laid.at (l : Laid) (j : List ℕ) : Option ℚ :=
  match l.vals with
  | .scalar x => some x
  | .array xs =>
      xs[ravelIx l.shape (List.zipWith (fun n i => if n = 1 then 0 else i) l.shape j)]?

/-- Shapes broadcast to `S`. -/
structure Spec.Broadcasts (shapes : List (List ℕ)) (S : List ℕ) : Prop where
  fits : ∀ s ∈ shapes, s = [] ∨ (s.length = S.length ∧ ∀ a : ℕ, s[a]? = some 1 ∨ s[a]? = S[a]?)
  covers : ∀ a < S.length, ∃ s ∈ shapes, s[a]? = S[a]?

/-- A probability function applied entry by entry: at every entry of the common shape it
is `f` of the numbers the variables have there. -/
def Spec.Pointwise (F : Dict Str Laid → Dict Str (Option ℕ) → Py Arr)
    (f : (Str → Option ℚ) → ℝ) : Prop :=
  ∀ vals dims S, Spec.Broadcasts (vals.map fun kl => kl.2.shape) S →
    ∃ a, F vals dims = .ok a ∧ a.shape = S ∧
      ∀ j ∈ idx S, a.get j = f fun k => (Dict.get? vals k).bind fun l => l.at j

/-- A dependence of leafs on roots without further variables, with well-formed and
different names. -/
structure Spec.Dep (fmt : Val → Str) (D : SDep) : Prop where
  some : D.leafs ≠ []
  all : (D.leafs ++ D.roots).Perm D.vars
  good : ∀ v ∈ D.vars, Spec.GoodName fmt v.var
  nodup : (D.vars.map Drawn.name).Nodup
  stable : evalPscale D.pscale.spec = .ok D.pscale

/-- The values a variable answers a request with. -/
def Spec.Answers (values : Dict Str Req) (v : Drawn) (x : VArg ℚ) : Prop :=
  v.var.evaluate (Spec.request values v.name) v.r v.perm = .ok x

/-- The request mentions variables of the dependence only, each once, and every
variable answers with at least one value. -/
structure Spec.Asks (D : SDep) (values : Dict Str Req) : Prop where
  keys : values.keys.Nodup
  known : ∀ k ∈ values.keys, k ∈ D.vars.map Drawn.name
  answers : ∀ v ∈ D.vars, ∃ x, Spec.Answers values v x ∧ ∀ n ∈ x.sizes, 0 < n

/-- The number variable `k` has at an entry of a distribution. -/
def Spec.pointAt (d : PD) (j : List ℕ) (k : Str) : Option ℚ :=
  match d.values k with
  | some (.scalar x) => some x
  | some (.arr _ xs) => ((d.axis k).bind (j[·]?)).bind (xs[·]?)
  | _ => none

/-- The text of a variable in the name of a distribution: with a number the number,
otherwise as asked for. -/
def Spec.text (fmt : Val → Str) (values : Dict Str Req) (v : Drawn) : VArg ℚ → Str
  | .scalar x => eqText fmt v.name (.scalar x)
  | .array _ => distName fmt v.name (Spec.request values v.name)

/-- The entries of one side of a name. -/
def Spec.Texts (fmt : Val → Str) (values : Dict Str Req) (vs : List Drawn) (m : Dict Str Str) : Prop :=
  List.Forall₂ (fun v kt => kt.1 = v.name ∧
    ∃ x, Spec.Answers values v x ∧ kt.2 = Spec.text fmt values v x) vs m

/-- `d` is the conditional distribution of the leafs given the roots with probabilities `f`. -/
structure Spec.Called (fmt : Val → Str) (D : SDep) (values : Dict Str Req)
    (f : (Str → Option ℚ) → ℝ) (d : PD) : Prop where
  wf : d.WF fmt
  marg : Spec.Texts fmt values D.leafs d.marg
  cond : Spec.Texts fmt values D.roots d.cond
  /-- every variable has the values it answers with -/
  values : ∀ v ∈ D.vars, ∃ x, Spec.Answers values v x ∧ d.values v.name = some x.toVal ∧
    (d.axis v.name).isSome = !x.isscalar
  own : ∀ k, Spec.OwnAxis d k
  order : Spec.Ordered d
  pscale : d.pscale = D.pscale
  entry : ∀ j ∈ idx d.shape, d.at j = Spec.value D.pscale (f (Spec.pointAt d j))

variable {fmt : Val → Str}

/-! ### The call -/

/-- A part with what it is asked for, without its own probabilities. -/
def askPart (v : Drawn) (q : Req) (x : VArg ℚ) : Part :=
  ⟨v, q, x, ⟨[], fun _ => 0⟩, .lin 1, ⟨[], [], [], ⟨[], [], 0, [], [], 0, [], true⟩, ⟨[], fun _ => 0⟩, .lin 1⟩⟩

/-- What is asked of a part. -/
structure Part.Asked (fmt : Val → Str) (values : Dict Str Req) (p : Part) : Prop where
  good : Spec.GoodName fmt p.v.var
  req : Spec.request values p.v.name = p.q
  eval : p.v.var.evaluate p.q p.v.r p.v.perm = .ok p.x
  pos : ∀ n ∈ p.x.sizes, 0 < n

/-- The entries of one side of a name, after the values are known. -/
def sideOf (fmt : Val → Str) (L : List Part) : Dict Str Str :=
  L.map fun p => (p.v.name, finalText fmt p.v.name (distName fmt p.v.name p.q) p.x)

/-- The entries as asked for. -/
def askedOf (fmt : Val → Str) (L : List Part) : Dict Str Str :=
  L.map fun p => (p.v.name, distName fmt p.v.name p.q)

theorem keys_sideOf (L : List Part) : (sideOf fmt L).keys = L.map fun p => p.v.name := by
  simp [sideOf, Dict.keys, Function.comp_def]

theorem keys_askedOf (L : List Part) : (askedOf fmt L).keys = L.map fun p => p.v.name := by
  simp [askedOf, Dict.keys, Function.comp_def]

/-- Building a distribution from evaluated values, with some variables on the left and
the others on the right of the name. -/
theorem layout_ok {ps L R : List Part} {values : Dict Str Req} (hne : ps ≠ [])
    (hn : (ps.map fun p => p.v.name).Nodup) (hLR : (L ++ R).Perm ps)
    (h : ∀ p ∈ ps, p.Asked fmt values) {vals : Dict Str Laid} {dims : Dict Str (Option ℕ)}
    (e2 : vals.keys.Perm (ps.map fun p => p.v.name))
    (e3 : ∀ p ∈ ps, Dict.get? vals p.v.name =
        some (laidOf (shapeOf (named ps)).length (axisIn ps p.v.name) p.x))
    (e4 : dims.keys.Nodup) (e5 : ∀ k ∈ dims.keys, k ∈ ps.map fun p => p.v.name)
    (e6 : ∀ k, (Dict.get? dims k).join = axisIn ps k) (r : Arr)
    (r2 : r.shape = shapeOf (named ps)) {s : PScale} (hse : evalPscale s.spec = .ok s) :
    ∃ d, pdInit fmt (margcondStr (askedOf fmt L) (askedOf fmt R))
        (vals.map fun kl => (kl.1, kl.2.toVal)) (some dims) r s.spec = .ok d ∧ d.WF fmt ∧
      d.marg = sideOf fmt L ∧ d.cond = sideOf fmt R ∧ d.pscale = s ∧ d.prob = r ∧
      d.shape = shapeOf (named ps) ∧ d.keylist = vals.keys ∧
      (∀ p ∈ ps, d.values p.v.name = some p.x.toVal) ∧ (∀ k, d.axis k = axisIn ps k) := by
  set S := shapeOf (named ps) with hS
  have hmem : ∀ p, p ∈ ps ↔ p ∈ L ∨ p ∈ R := by
    intro p; rw [← hLR.mem_iff, List.mem_append]
  have hnLR : ((L ++ R).map fun p => p.v.name).Nodup := (hLR.map _).nodup_iff.mpr hn
  rw [List.map_append, List.nodup_append] at hnLR
  obtain ⟨hnL, hnR, hdis⟩ := hnLR
  set V : Dict Str Val := vals.map fun kl => (kl.1, kl.2.toVal) with hV
  have hVk : V.keys = vals.keys := by simp [hV, Dict.keys, Function.comp_def]
  have hVg : ∀ p ∈ ps, Dict.get? V p.v.name = some (laidOf S.length (axisIn ps p.v.name) p.x).toVal := by
    intro p hp
    have := Dict.get?_map (fun (_ : Str) (l : Laid) => l.toVal) vals p.v.name
    rw [hV, this, e3 p hp]; rfl
  have hVn : V.keys.Nodup := by rw [hVk]; exact e2.nodup_iff.mpr hn
  have hpart : ∀ k v, Dict.get? V k = some v → ∃ p ∈ ps, k = p.v.name ∧
      v = (laidOf S.length (axisIn ps p.v.name) p.x).toVal := by
    intro k v hkv
    have hkm := Dict.mem_keys_of_get? hkv
    rw [hVk] at hkm
    obtain ⟨p, hp, rfl⟩ := List.mem_map.mp (e2.mem_iff.mp hkm)
    rw [hVg p hp] at hkv
    exact ⟨p, hp, rfl, (Option.some.inj hkv).symm⟩
  have hside : ∀ (K : List Part) (f : Part → Str), (K.map fun p => p.v.name).Nodup →
      (∀ p ∈ K, p ∈ ps) → (∀ p ∈ ps, Spec.Entry p.v.name (f p)) →
      Spec.Side (K.map fun p => (p.v.name, f p)) := by
    intro K f hK hsub hf
    refine ⟨by simpa [Dict.keys, Function.comp_def] using hK, ?_⟩
    intro kt hkt
    obtain ⟨p, hp, rfl⟩ := List.mem_map.mp hkt
    exact hf p (hsub p hp)
  have hfin : ∀ p ∈ ps, Spec.Entry p.v.name (finalText fmt p.v.name (distName fmt p.v.name p.q) p.x) :=
    fun p hp => entry_finalText (h p hp).good (entry_distName (h p hp).good p.q) p.x
  have hLs : ∀ p ∈ L, p ∈ ps := fun p hp => (hmem p).mpr (Or.inl hp)
  have hRs : ∀ p ∈ R, p ∈ ps := fun p hp => (hmem p).mpr (Or.inr hp)
  have hgetS : ∀ (K : List Part), (K.map fun p => p.v.name).Nodup → ∀ p ∈ K,
      Dict.get? (sideOf fmt K) p.v.name =
        some (finalText fmt p.v.name (distName fmt p.v.name p.q) p.x) := by
    intro K hK p hp
    exact Dict.get?_of_mem (by rw [keys_sideOf]; exact hK) (List.mem_map.mpr ⟨p, hp, rfl⟩)
  have hgetA : ∀ (K : List Part), (K.map fun p => p.v.name).Nodup → ∀ p ∈ K,
      Dict.get? (askedOf fmt K) p.v.name = some (distName fmt p.v.name p.q) := by
    intro K hK p hp
    exact Dict.get?_of_mem (by rw [keys_askedOf]; exact hK) (List.mem_map.mpr ⟨p, hp, rfl⟩)
  have hB : BuildArgs fmt (sideOf fmt L) (sideOf fmt R) V dims S := by
    refine { ne := ?_, nodup := hVn, allowed := ?_, margSide := hside L _ hnL hLs hfin,
             condSide := hside R _ hnR hRs hfin,
             disj := ?_, keys := ?_, dimNodup := e4, dimKeys := ?_, single := ?_, array := ?_,
             cover := ?_ }
    · intro h0
      rw [h0] at hVk
      rw [← hVk] at e2
      have := e2.length_eq
      simp only [Dict.keys_nil, List.length_nil, List.length_map] at this
      exact hne (List.length_eq_zero_iff.mp this.symm)
    · intro k hkv
      rw [hVk, e2.mem_iff] at hkv
      obtain ⟨p, hp, rfl⟩ := List.mem_map.mp hkv
      exact (h p hp).good.allowed
    · intro k hk hk'
      rw [keys_sideOf] at hk hk'
      exact hdis k hk k hk' rfl
    · intro k
      rw [hVk, e2.mem_iff, keys_sideOf, keys_sideOf, ← (hLR.map _).mem_iff, List.map_append,
        List.mem_append]
    · intro k hkd
      rw [hVk, e2.mem_iff]; exact e5 k hkd
    · intro k v hkv hsing
      obtain ⟨p, hp, rfl, rfl⟩ := hpart k v hkv
      have hpa := part_axis hn hp
      rcases hx : p.x with x | xs
      · rw [hx] at hpa
        refine ⟨by rw [e6, axisIn, hpa]; rfl, ?_⟩
        rcases (hmem p).mp hp with hp' | hp'
        · left; rw [hgetS L hnL p hp', hx]; rfl
        · right; rw [hgetS R hnR p hp', hx]; rfl
      · obtain ⟨a, _, ha, _, m, t, hsh⟩ := part_array hn hp hx
        rw [hx] at hsing
        simp [laidOf, Laid.toVal, Val.issingleton, ha, hS, hsh] at hsing
    · intro k v hkv hsing
      obtain ⟨p, hp, rfl, rfl⟩ := hpart k v hkv
      rcases hx : p.x with x | xs
      · rw [hx] at hsing
        simp [laidOf, Laid.toVal, Val.issingleton] at hsing
      · obtain ⟨a, hlt, ha, h2, _⟩ := part_array hn hp hx
        refine ⟨axisShape S.length a xs.length, xs, a, ?_, ?_, ?_, h2⟩
        · simp [laidOf, Laid.toVal, ha]
        · rw [foldl_max_axisShape _ _ _ hlt ((h p hp).pos _ (by simp [hx, VArg.sizes]))]
        · exact join_eq_some.mp (by rw [e6, ha])
    · intro a ha
      obtain ⟨k, _, hka⟩ := axes_cover (named ps) 0 a (by rw [named_fst]; exact hn) ha
      exact ⟨k, by rw [e6, axisIn, hka]; simp⟩
  obtain ⟨d, d1, d2, d3, d4, d5, d6, d7, d8, d9⟩ := pdInit_ok hB r r2 s.spec s hse
  have hname : pdInit fmt (margcondStr (askedOf fmt L) (askedOf fmt R)) V (some dims) r s.spec =
      .ok d := by
    rw [← d1]
    apply pdInit_named hB
      (hside L _ hnL hLs fun p hp => entry_distName (h p hp).good p.q)
      (hside R _ hnR hRs fun p hp => entry_distName (h p hp).good p.q)
    · rw [keys_sideOf]; exact keys_askedOf (fmt := fmt) L
    · rw [keys_sideOf]; exact keys_askedOf (fmt := fmt) R
    · intro k v hkv hsing
      obtain ⟨p, hp, rfl, rfl⟩ := hpart k v hkv
      rcases hx : p.x with x | xs
      · rw [hx] at hsing
        simp [laidOf, Laid.toVal, Val.issingleton] at hsing
      · have key : ∀ K : List Part, (∀ q ∈ K, q ∈ ps) → (K.map fun p => p.v.name).Nodup →
            Dict.get? (askedOf fmt K) p.v.name = Dict.get? (sideOf fmt K) p.v.name := by
          intro K hK hKn
          by_cases hm : p.v.name ∈ K.map fun p => p.v.name
          · obtain ⟨q, hq, he⟩ := List.mem_map.mp hm
            have : q = p := List.inj_on_of_nodup_map hn (hK q hq) hp he
            subst this
            rw [hgetA K hKn q hq, hgetS K hKn q hq, hx]; rfl
          · rw [Dict.get?_eq_none.mpr (by rw [keys_askedOf]; exact hm),
              Dict.get?_eq_none.mpr (by rw [keys_sideOf]; exact hm)]
        exact ⟨key L hLs hnL, key R hRs hnR⟩
  have hkl : d.keylist = vals.keys := by
    show Dict.keys d.vals = _
    rw [d5, Dict.keys_map, hVk]
  refine ⟨d, hname, d2, d3, d4, d9, d8, d7, hkl, ?_, ?_⟩
  · intro p hp
    rw [hB.values d5, hVg p hp]
    rcases hx : p.x with x | xs
    · rfl
    · obtain ⟨a, hlt, ha, h2, m, t, hsh⟩ := part_array hn hp hx
      simp only [laidOf, Laid.toVal, Option.map_some, VArg.toVal, ha, Option.getD_some, hS, hsh]
      rfl
  · intro k; rw [d6, e6]

theorem vals_askedOf (L : List Part) (values : Dict Str Req)
    (hq : ∀ p ∈ L, Dict.get? values p.v.name = some p.q) :
    rfDistName fmt (L.map Part.v) values [] = [','].intercalate (Dict.vals (askedOf fmt L)) := by
  rw [rfDistName]
  congr 1
  simp only [askedOf, Dict.vals, List.map_map, Function.comp_def, List.append_nil]
  apply List.map_congr_left
  intro p hp
  rw [hq p hp]; rfl

/-- The entry of a laid out value. -/
theorem laid_at {ps : List Part} (hn : (ps.map fun p => p.v.name).Nodup) {p : Part} (hp : p ∈ ps)
    {j : List ℕ} (hj : j ∈ idx (shapeOf (named ps))) :
    (laidOf (shapeOf (named ps)).length (axisIn ps p.v.name) p.x).at j =
      match p.x with
      | .scalar x => some x
      | .array xs => ((axisIn ps p.v.name).bind (j[·]?)).bind (xs[·]?) := by
  rcases hx : p.x with x | xs
  · rfl
  · obtain ⟨a, hlt, ha, hS, _⟩ := part_array hn hp hx
    have hlt' : a < j.length := by rw [length_of_mem_idx hj]; exact hlt
    have hm : j[a] < xs.length := getElem?_lt_of_mem_idx hj (List.getElem?_eq_getElem hlt') hS
    have := ravelIx_axisShape (length_of_mem_idx hj) (List.getElem?_eq_getElem hlt') hm
    unfold clip at this
    simp only [laidOf, Laid.at, ha, Option.getD_some, this, Option.bind_some,
      List.getElem?_eq_getElem hlt']

/-- Everything about an evaluated request. -/
structure Evald (fmt : Val → Str) (D : SDep) (values : Dict Str Req) (ps L R : List Part)
    (vals : Dict Str Laid) (dims : Dict Str (Option ℕ)) : Prop where
  ne : ps ≠ []
  vars : ps.map Part.v = D.vars
  leafs : L.map Part.v = D.leafs
  roots : R.map Part.v = D.roots
  nodup : (ps.map fun p => p.v.name).Nodup
  perm : (L ++ R).Perm ps
  asked : ∀ p ∈ ps, p.Asked fmt values
  parse : rfParse D.vars values = .ok (fullValues ps values)
  name : D.distName fmt (fullValues ps values) = margcondStr (askedOf fmt L) (askedOf fmt R)
  eval : rfEvaluate D.vars (fullValues ps values) = .ok (vals, dims)
  keys : vals.keys.Perm (ps.map fun p => p.v.name)
  get : ∀ p ∈ ps, Dict.get? vals p.v.name =
        some (laidOf (shapeOf (named ps)).length (axisIn ps p.v.name) p.x)
  dimNodup : dims.keys.Nodup
  dimKeys : ∀ k ∈ dims.keys, k ∈ ps.map fun p => p.v.name
  axes : ∀ k, (Dict.get? dims k).join = axisIn ps k
  order : shapeOf (named ps) ≠ [] → vals.keys = ps.map fun p => p.v.name
  ndims : fieldNdims dims = (shapeOf (named ps)).length
  bcast : Spec.Broadcasts (vals.map fun kl => kl.2.shape) (shapeOf (named ps))

theorem evald {D : SDep} {values : Dict Str Req} (hD : Spec.Dep fmt D) (hA : Spec.Asks D values) :
    ∃ ps L R vals dims, Evald fmt D values ps L R vals dims := by
  haveI : Nonempty (VArg ℚ) := ⟨.scalar 0⟩
  have hans := hA.answers
  choose! x hx using hans
  set part : Drawn → Part := fun v => askPart v (Spec.request values v.name) (x v) with hpart
  have hpv : ∀ vs : List Drawn, (vs.map part).map Part.v = vs := by
    intro vs; rw [List.map_map]; exact List.map_id vs
  have hnames : ∀ vs : List Drawn, ((vs.map part).map fun p => p.v.name) = vs.map Drawn.name := by
    intro vs; rw [List.map_map]; rfl
  have hask : ∀ p ∈ D.vars.map part, p.Asked fmt values := by
    intro p hp
    obtain ⟨v, hv, rfl⟩ := List.mem_map.mp hp
    exact ⟨hD.good v hv, rfl, (hx v hv).1, (hx v hv).2⟩
  have hne : D.vars.map part ≠ [] := by
    intro h0
    have h1 := List.map_eq_nil_iff.mp h0
    have h2 := hD.all
    rw [h1, List.perm_nil] at h2
    exact hD.some (List.append_eq_nil_iff.mp h2).1
  have hn : ((D.vars.map part).map fun p => p.v.name).Nodup := by rw [hnames]; exact hD.nodup
  have hk : ∀ k ∈ values.keys, k ∈ (D.vars.map part).map fun p => p.v.name := by
    rw [hnames]; exact hA.known
  obtain ⟨vals, dims, e1, e2, e3, e4, e5, e6, e7, e8⟩ := rfEvaluate_ok hn hA.keys hk
    (fun p hp => (hask p hp).req) (fun p hp => (hask p hp).eval)
  have hq : ∀ p ∈ D.vars.map part, Dict.get? (fullValues (D.vars.map part) values) p.v.name = some p.q := by
    intro p hp; rw [get?_fullValues hp, (hask p hp).req]
  have hperm : (D.leafs.map part ++ D.roots.map part).Perm (D.vars.map part) := by
    rw [← List.map_append]; exact hD.all.map part
  have hL : ∀ p ∈ D.leafs.map part, p ∈ D.vars.map part := fun p hp =>
    hperm.mem_iff.mp (List.mem_append_left _ hp)
  have hR : ∀ p ∈ D.roots.map part, p ∈ D.vars.map part := fun p hp =>
    hperm.mem_iff.mp (List.mem_append_right _ hp)
  refine ⟨D.vars.map part, D.leafs.map part, D.roots.map part, vals, dims, hne, hpv _, hpv _, hpv _,
    hn, hperm, hask, ?_, ?_, ?_, e2, e3, e4, e5, e6, e7, e8, ?_⟩
  · unfold rfParse
    simp only
    rw [if_pos]
    · unfold fullValues; rw [hnames]
    · simp only [List.all_eq_true, decide_eq_true_eq]; exact hA.known
  · have h1 := vals_askedOf (fmt := fmt) (D.leafs.map part) _ fun p hp => hq p (hL p hp)
    have h2 := vals_askedOf (fmt := fmt) (D.roots.map part) _ fun p hp => hq p (hR p hp)
    rw [hpv] at h1 h2
    simp only [SDep.distName, margcondStr, h1, h2]
  · rw [hpv] at e1; exact e1
  · set ps := D.vars.map part with hps
    have hval : ∀ kl ∈ vals, ∃ p ∈ ps, kl.2 = laidOf (shapeOf (named ps)).length (axisIn ps p.v.name) p.x := by
      intro kl hkl
      have hkm : kl.1 ∈ vals.keys := List.mem_map.mpr ⟨kl, hkl, rfl⟩
      obtain ⟨p, hp, he⟩ := List.mem_map.mp (e2.mem_iff.mp hkm)
      have h1 := Dict.get?_of_mem (e2.nodup_iff.mpr hn) hkl
      rw [← he, e3 p hp] at h1
      exact ⟨p, hp, (Option.some.inj h1).symm⟩
    constructor
    · intro s hs
      obtain ⟨kl, hkl, rfl⟩ := List.mem_map.mp hs
      obtain ⟨p, hp, he⟩ := hval kl hkl
      rw [he]
      rcases hx' : p.x with y | xs
      · left; rfl
      · right
        obtain ⟨a, hlt, ha, hS, _⟩ := part_array hn hp hx'
        simp only [laidOf, ha, Option.getD_some]
        refine ⟨length_axisShape _ _ _, ?_⟩
        intro b
        by_cases hb : b = a
        · subst hb
          right
          rw [axisShape, List.getElem?_set_self (by simpa using hlt), hS]
        · rw [axisShape, List.getElem?_set_ne (Ne.symm hb), List.getElem?_replicate]
          by_cases hbl : b < (shapeOf (named ps)).length
          · left; simp [hbl]
          · right; simp [hbl]
    · intro a ha
      obtain ⟨k, hkm, hka⟩ := axes_cover (named ps) 0 a (by rw [named_fst]; exact hn) ha
      rw [named_fst] at hkm
      obtain ⟨p, hp, rfl⟩ := List.mem_map.mp hkm
      rcases hx' : p.x with y | xs
      · have := part_axis hn hp
        rw [hx'] at this
        rw [this] at hka
        simp at hka
      · obtain ⟨a', hlt, ha', hS, _⟩ := part_array hn hp hx'
        rw [axisIn, hka] at ha'
        obtain rfl := Option.some.inj ha'
        rw [zero_add] at hlt hS
        refine ⟨axisShape (shapeOf (named ps)).length a xs.length, ?_, ?_⟩
        · refine List.mem_map.mpr ⟨_, Dict.get?_mem (e3 p hp), ?_⟩
          simp only [laidOf, hx', axisIn, hka, zero_add, Option.getD_some]
        · rw [axisShape, List.getElem?_set_self (by simpa using hlt), hS]

theorem text_final {values : Dict Str Req} {p : Part} (h : p.Asked fmt values) :
    finalText fmt p.v.name (distName fmt p.v.name p.q) p.x = Spec.text fmt values p.v p.x := by
  rw [← h.req]
  rcases p.x with x | xs <;> rfl

theorem texts_sideOf {values : Dict Str Req} : ∀ {L : List Part}, (∀ p ∈ L, p.Asked fmt values) →
    Spec.Texts fmt values (L.map Part.v) (sideOf fmt L) := by
  intro L h
  induction L with
  | nil => exact .nil
  | cons p L ih =>
    refine .cons ⟨rfl, p.x, ?_, text_final (h p (by simp))⟩ (ih fun p hp => h p (by simp [hp]))
    have := h p (by simp)
    rw [Spec.Answers, this.req]; exact this.eval

/-- Axes are owned and ordered. -/
theorem parts_axes {ps : List Part} {d : PD} (hn : (ps.map fun p => p.v.name).Nodup)
    (hax : ∀ k, d.axis k = axisIn ps k)
    (hkl : shapeOf (named ps) ≠ [] → d.keylist = ps.map fun p => p.v.name) :
    (∀ k, Spec.OwnAxis d k) ∧ Spec.Ordered d := by
  have hord := axes_order (named ps) 0 (by rw [named_fst]; exact hn)
  rw [named_fst] at hord
  have hmem : ∀ k a, d.axis k = some a → k ∈ ps.map fun p => p.v.name := by
    intro k a hka
    rw [hax] at hka
    have := Dict.mem_keys_of_get? (join_eq_some.mp hka)
    rwa [keys_axesFrom, named_fst] at this
  constructor
  · intro k k' a hka hka'
    by_contra hne
    have hk := hmem k a hka
    have hk' := hmem k' a hka'
    have hs : ∀ x ∈ ps.map (fun p => p.v.name), ∀ y ∈ ps.map (fun p => p.v.name), x ≠ y →
        ∀ a b, axisIn ps x = some a → axisIn ps y = some b → a ≠ b := by
      have hsym : (ps.map fun p => p.v.name).Pairwise fun x y => ∀ a b, axisIn ps x = some a →
          axisIn ps y = some b → a ≠ b := hord.imp fun h a b ha hb => (h a b ha hb).ne
      intro x hx y hy hxy
      haveI : Std.Symm fun x y : Str => ∀ a b, axisIn ps x = some a → axisIn ps y = some b →
          a ≠ b := ⟨fun _ _ hxy a b ha hb => (hxy b a hb ha).symm⟩
      exact hsym.forall hx hy hxy
    exact hs k' hk' k hk hne a a (by rw [← hax, hka']) (by rw [← hax, hka]) rfl
  · by_cases h0 : shapeOf (named ps) = []
    · apply List.Pairwise.imp_of_mem (R := fun _ _ => True) _ (List.pairwise_of_forall (by simp))
      intro k k' _ _ _ a b hka _
      exfalso
      obtain ⟨p, hp, rfl⟩ := List.mem_map.mp (hmem k a hka)
      rcases hx : p.x with x | xs
      · have := part_axis hn hp
        rw [hx] at this
        rw [hax, axisIn, this] at hka
        simp at hka
      · obtain ⟨a', hlt, _⟩ := part_array hn hp hx
        rw [h0] at hlt
        simp at hlt
    · unfold Spec.Ordered
      rw [hkl h0]
      refine hord.imp ?_
      intro k k' hkk a b ha hb
      rw [hax] at ha hb
      exact (hkk a b ha hb).le

/-- The distribution of an evaluated request. -/
theorem sd_called {D : SDep} {values : Dict Str Req} {ps L R : List Part} {vals : Dict Str Laid}
    {dims : Dict Str (Option ℕ)} (hD : Spec.Dep fmt D) (E : Evald fmt D values ps L R vals dims)
    {f : (Str → Option ℚ) → ℝ} (hf : Spec.Pointwise D.prob f) :
    ∃ a d, D.prob vals dims = .ok a ∧ a.shape = shapeOf (named ps) ∧
      pdInit fmt (D.distName fmt (fullValues ps values)) (vals.map fun kl => (kl.1, kl.2.toVal))
        (some dims) a D.pscale.spec = .ok d ∧ Spec.Called fmt D values f d ∧
      d.marg = sideOf fmt L ∧ d.cond = sideOf fmt R ∧ d.shape = shapeOf (named ps) ∧
      (∀ p ∈ ps, d.values p.v.name = some p.x.toVal) ∧ (∀ k, d.axis k = axisIn ps k) ∧
      d.keylist = vals.keys := by
  obtain ⟨a, a1, a2, a3⟩ := hf vals dims _ E.bcast
  obtain ⟨d, d1, d2, d3, d4, d5, d6, d7, d8, d9, d10⟩ :=
    layout_ok E.ne E.nodup E.perm E.asked E.keys E.get E.dimNodup E.dimKeys E.axes a a2 hD.stable
  rw [← E.name] at d1
  obtain ⟨o1, o2⟩ := parts_axes E.nodup d10 fun h0 => by rw [d8]; exact E.order h0
  have hLs : ∀ p ∈ L, p ∈ ps := fun p hp => E.perm.mem_iff.mp (List.mem_append_left _ hp)
  have hRs : ∀ p ∈ R, p ∈ ps := fun p hp => E.perm.mem_iff.mp (List.mem_append_right _ hp)
  refine ⟨a, d, a1, a2, d1, ⟨d2, ?_, ?_, ?_, o1, o2, d5, ?_⟩, d3, d4, d7, d9, d10, d8⟩
  · rw [d3, ← E.leafs]; exact texts_sideOf fun p hp => E.asked p (hLs p hp)
  · rw [d4, ← E.roots]; exact texts_sideOf fun p hp => E.asked p (hRs p hp)
  · intro v hv
    rw [← E.vars] at hv
    obtain ⟨p, hp, rfl⟩ := List.mem_map.mp hv
    refine ⟨p.x, ?_, d9 p hp, ?_⟩
    · rw [Spec.Answers, (E.asked p hp).req]; exact (E.asked p hp).eval
    · rw [d10]
      rcases hx : p.x with x | xs
      · have := part_axis E.nodup hp
        rw [hx] at this
        rw [axisIn, this]; rfl
      · obtain ⟨b, _, hb, _⟩ := part_array E.nodup hp hx
        rw [hb]; rfl
  · intro j hj
    rw [d7] at hj
    rw [PD.at, d5, d6, a3 j hj]
    congr 2
    funext k
    by_cases hk : k ∈ ps.map fun p => p.v.name
    · obtain ⟨p, hp, rfl⟩ := List.mem_map.mp hk
      rw [E.get p hp, Option.bind_some, laid_at E.nodup hp hj, Spec.pointAt, d9 p hp, d10]
      rcases p.x with x | xs <;> rfl
    · have h1 : Dict.get? vals k = none := Dict.get?_eq_none.mpr fun h => hk (E.keys.mem_iff.mp h)
      have h2 : d.values k = none := by
        rw [PD.values, Dict.get?_eq_none.mpr]
        · rfl
        · intro h
          have : k ∈ d.keylist := h
          rw [d8] at this
          exact hk (E.keys.mem_iff.mp this)
      rw [h1, Spec.pointAt, h2]; rfl

/-- C73: calling a dependence whose probability function works entry by entry gives the
conditional distribution of the leafs given the roots: the variables have the values
asked for, those with several values an axis each, and every entry is the
function's value there. -/
theorem C73_call {D : SDep} {values : Dict Str Req} {f : (Str → Option ℚ) → ℝ}
    (hD : Spec.Dep fmt D) (hA : Spec.Asks D values) (hf : Spec.Pointwise D.prob f) :
    ∃ d, D.call fmt values (.bool false) = .ok d ∧ Spec.Called fmt D values f d := by
  obtain ⟨ps, L, R, vals, dims, E⟩ := evald hD hA
  obtain ⟨a, d, h1, _, h2, h3, _⟩ := sd_called hD E hf
  refine ⟨d, ?_, h3⟩
  simp only [SDep.call, E.parse, E.eval, h1, bind, Except.bind, SDep.evalIid, SDep.iidIter, if_true]
  exact h2

theorem sd_pos {D : SDep} {values : Dict Str Req} {ps L R : List Part} {vals : Dict Str Laid}
    {dims : Dict Str (Option ℕ)} (E : Evald fmt D values ps L R vals dims) {d : PD}
    (hs : d.shape = shapeOf (named ps)) : d.Pos := by
  intro n hn
  rw [hs] at hn
  simp only [shapeOf, named, List.mem_flatMap, List.mem_map] at hn
  obtain ⟨_, ⟨p, hp, rfl⟩, hn⟩ := hn
  exact (E.asked p hp).pos n hn

/-- The product over observations. -/
theorem iid_core {D : SDep} {values : Dict Str Req} {f : (Str → Option ℚ) → ℝ} {iid : Iid}
    (hD : Spec.Dep fmt D) (hA : Spec.Asks D values) (hf : Spec.Pointwise D.prob f)
    (hne : D.iidIter iid ≠ []) :
    ∃ ps L R vals dims d, Evald fmt D values ps L R vals dims ∧
      D.call fmt values (.bool false) = .ok d ∧ Spec.Called fmt D values f d ∧ d.Pos ∧
      d.marg = sideOf fmt L ∧ d.cond = sideOf fmt R ∧ d.shape = shapeOf (named ps) ∧
      (∀ p ∈ ps, d.values p.v.name = some p.x.toVal) ∧ (∀ k, d.axis k = axisIn ps k) ∧
      d.keylist = vals.keys ∧
      D.call fmt values iid = d.prod fmt (D.iidKeys iid) := by
  obtain ⟨ps, L, R, vals, dims, E⟩ := evald hD hA
  obtain ⟨a, d, h1, h1', h2, h3, h4, h5, h6, h7, h8, h9⟩ := sd_called hD E hf
  refine ⟨ps, L, R, vals, dims, d, E, ?_, h3, sd_pos E h6, h4, h5, h6, h7, h8, h9, ?_⟩
  · simp only [SDep.call, E.parse, E.eval, h1, bind, Except.bind, SDep.evalIid, SDep.iidIter, if_true]
    exact h2
  · simp only [SDep.call, E.parse, E.eval, h1, bind, Except.bind, SDep.evalIid, if_neg hne]
    rw [if_pos (Or.inr (by rw [E.ndims, h1'])), h2]

/-- The keys over which the product is taken. -/
structure Spec.Observed (fmt : Val → Str) (D : SDep) (values : Dict Str Req) (ks : List Str) : Prop where
  some : ks ≠ []
  leafs : ∀ k ∈ ks, k ∈ D.leafs.map Drawn.name
  /-- each has been given observations -/
  arrays : ∀ v ∈ D.leafs, v.name ∈ ks → ∀ x, Spec.Answers values v x → ∃ xs, x = .array xs
  /-- their numbers can be written in names -/
  texts : ∀ k ∈ ks, ∀ n : ℕ, Spec.Entry k (eqText fmt k (.setint n))

theorem keys_texts {values : Dict Str Req} {vs : List Drawn} {m : Dict Str Str}
    (h : Spec.Texts fmt values vs m) : m.keys = vs.map Drawn.name := by
  induction h with
  | nil => rfl
  | cons hab _ ih => rw [Dict.keys_cons, List.map_cons, ih, hab.1]

theorem observed_axes {D : SDep} {values : Dict Str Req} {f : (Str → Option ℚ) → ℝ} {d : PD}
    {ks : List Str} (hD : Spec.Dep fmt D) (c2 : Spec.Called fmt D values f d)
    (hO : Spec.Observed fmt D values ks) : ∀ k ∈ ks, k ∈ d.marg.keys ∧ (d.axis k).isSome := by
  intro k hk
  have hkl := hO.leafs k hk
  refine ⟨by rw [keys_texts c2.marg]; exact hkl, ?_⟩
  obtain ⟨v, hv, rfl⟩ := List.mem_map.mp hkl
  obtain ⟨x, x1, _, x3⟩ := c2.values v (hD.all.mem_iff.mp (List.mem_append_left _ hv))
  obtain ⟨xs, rfl⟩ := hO.arrays v hv hk x x1
  rw [x3]; rfl

theorem observed_closed {D : SDep} {values : Dict Str Req} {f : (Str → Option ℚ) → ℝ} {d : PD}
    {ks : List Str} (hD : Spec.Dep fmt D) (c2 : Spec.Called fmt D values f d)
    (hO : Spec.Observed fmt D values ks) : ∀ k ∈ ks, ∀ k', d.axis k' = d.axis k → k' ∈ ks := by
  intro k hk k' hkk
  obtain ⟨a, ha⟩ := Option.isSome_iff_exists.mp (observed_axes hD c2 hO k hk).2
  rw [c2.own k k' a ha (by rw [hkk, ha])]
  exact hk

theorem iid_spec {D : SDep} {values : Dict Str Req} {f : (Str → Option ℚ) → ℝ} {iid : Iid}
    (hD : Spec.Dep fmt D) (hA : Spec.Asks D values) (hf : Spec.Pointwise D.prob f)
    (hne : D.iidIter iid ≠ []) (hO : Spec.Observed fmt D values (D.iidKeys iid))
    (hs : D.pscale = .lin 1 ∨ D.pscale = complexZero) :
    ∃ d like, D.call fmt values (.bool false) = .ok d ∧ Spec.Called fmt D values f d ∧
      D.call fmt values iid = .ok like ∧ like.WF fmt ∧ Spec.Counted d (D.iidKeys iid) like ∧
      like.pscale = D.pscale ∧ ∀ j ∈ idx like.shape, like.at j = Spec.prodAt d like j := by
  obtain ⟨ps, L, R, vals, dims, d, E, c1, c2, c3, _, _, _, _, _, _, c4⟩ := iid_core hD hA hf hne
  obtain ⟨like, l1, l2, l3, l4, l5⟩ := C27_prod_partial fmt d (D.iidKeys iid) c2.wf c3
    (by rw [c2.pscale]; exact hs) (observed_axes hD c2 hO) (observed_closed hD c2 hO) hO.texts c2.order
  exact ⟨d, like, c1, c2, by rw [c4]; exact l1, l2, l3, by rw [l4, c2.pscale], l5⟩

/-- C73, `iid=True`: with independent observations of every leaf, the observations are
replaced by their numbers and at every entry the probability is the product of the
probabilities of all observations.  Missing: scales other than one and
logarithmic zero (`C27_claim_fails`), and probability functions that take the product
themselves (`C73_user_partial`). -/
theorem C73_iid_partial {D : SDep} {values : Dict Str Req} {f : (Str → Option ℚ) → ℝ}
    (hD : Spec.Dep fmt D) (hA : Spec.Asks D values) (hf : Spec.Pointwise D.prob f)
    (hO : Spec.Observed fmt D values (D.leafs.map Drawn.name))
    (hs : D.pscale = .lin 1 ∨ D.pscale = complexZero) :
    ∃ d like, D.call fmt values (.bool false) = .ok d ∧ Spec.Called fmt D values f d ∧
      D.call fmt values (.bool true) = .ok like ∧ like.WF fmt ∧
      Spec.Counted d (D.leafs.map Drawn.name) like ∧
      like.pscale = D.pscale ∧ ∀ j ∈ idx like.shape, like.at j = Spec.prodAt d like j :=
  iid_spec hD hA hf hO.some hO hs

/-- The same for the keys given. -/
theorem C73_iid_keys_partial {D : SDep} {values : Dict Str Req} {f : (Str → Option ℚ) → ℝ}
    (ks : List Str) (hD : Spec.Dep fmt D) (hA : Spec.Asks D values) (hf : Spec.Pointwise D.prob f)
    (hO : Spec.Observed fmt D values ks) (hs : D.pscale = .lin 1 ∨ D.pscale = complexZero) :
    ∃ d like, D.call fmt values (.bool false) = .ok d ∧ Spec.Called fmt D values f d ∧
      D.call fmt values (.keys ks) = .ok like ∧ like.WF fmt ∧ Spec.Counted d ks like ∧
      like.pscale = D.pscale ∧ ∀ j ∈ idx like.shape, like.at j = Spec.prodAt d like j :=
  iid_spec hD hA hf hO.some hO hs

/-- The same for one key given as a string. -/
theorem C73_iid_key_partial {D : SDep} {values : Dict Str Req} {f : (Str → Option ℚ) → ℝ}
    (k : Str) (hD : Spec.Dep fmt D) (hA : Spec.Asks D values) (hf : Spec.Pointwise D.prob f)
    (hO : Spec.Observed fmt D values [k]) (hs : D.pscale = .lin 1 ∨ D.pscale = complexZero) :
    ∃ d like, D.call fmt values (.bool false) = .ok d ∧ Spec.Called fmt D values f d ∧
      D.call fmt values (.key k) = .ok like ∧ like.WF fmt ∧ Spec.Counted d [k] like ∧
      like.pscale = D.pscale ∧ ∀ j ∈ idx like.shape, like.at j = Spec.prodAt d like j := by
  refine iid_spec hD hA hf ?_ hO hs
  intro h0
  have hk : k = [] := by simpa [SDep.iidIter] using h0
  have hl := hO.leafs k (by simp)
  obtain ⟨v, hv, hvn⟩ := List.mem_map.mp hl
  exact (hD.good v (hD.all.mem_iff.mp (List.mem_append_left _ hv))).ne (by rw [← hk]; exact hvn)

/-! ### Joint distributions -/

/-- A request for given values. -/
def Spec.held : VArg ℚ → Req
  | .scalar x => .scalar x
  | .array xs => .array xs

theorem toVal_inj {x y : VArg ℚ} (h : x.toVal = y.toVal) : x = y := by
  cases x <;> cases y <;> simp_all [VArg.toVal]

theorem look_singles {d : PD} {asked : List Str} {gs : List (List Str)} (hnd : d.keylist.Nodup)
    (hown : ∀ k, Spec.OwnAxis d k) (hp : gs.flatten.Perm asked)
    (hg : ∀ g ∈ gs, g ≠ [] ∧ g.Sublist d.keylist)
    (hs : ∀ g ∈ gs, ∀ k ∈ g, ∀ k' ∈ asked, k' ∈ g ↔ Spec.Together d k k') :
    gs = gs.flatten.map fun k => [k] := by
  have key : ∀ l : List (List Str), (∀ g ∈ l, g ∈ gs) → l = l.flatten.map fun k => [k] := by
    intro l hl
    induction l with
    | nil => rfl
    | cons g l ih =>
      have hgg := hl g (by simp)
      obtain ⟨h1, h2⟩ := hg g hgg
      have hall : ∀ k ∈ g, ∀ k' ∈ g, k = k' := by
        intro k hk k' hk'
        have hm : k' ∈ asked := hp.mem_iff.mp (List.mem_flatten.mpr ⟨g, hgg, hk'⟩)
        rcases (hs g hgg k hk k' hm).mp hk' with h | ⟨a, ha, ha'⟩
        · exact h
        · exact (hown k k' a ha ha').symm
      have hgn : g.Nodup := h2.nodup hnd
      rcases g with _ | ⟨k, _ | ⟨k', g⟩⟩
      · exact absurd rfl h1
      · rw [List.flatten_cons, List.map_append, ← ih fun g hg => hl g (by simp [hg])]; rfl
      · have := hall k (by simp) k' (by simp)
        subst this
        simp at hgn
  exact key gs fun _ h => h

/-- The request made to the roots. -/
theorem condReq_ok {d : PD} (h : d.WF fmt) (hown : ∀ k, Spec.OwnAxis d k) (hne : d.cond ≠ [])
    (hv : ∀ k ∈ d.cond.keys, ∃ x : VArg ℚ, d.values k = some x.toVal) :
    ∃ vs, d.condReq = .ok vs ∧ vs.keys.Perm d.cond.keys ∧
      ∀ k ∈ d.cond.keys, ∀ x : VArg ℚ, d.values k = some x.toVal →
        Dict.get? vs k = some (Spec.held x) := by
  obtain ⟨gs, r, h1, h2, h3, h4, h5, _, h7⟩ := C62_lookup fmt d h d.cond.keys
  have hgs := look_singles h.nodup hown h4 h5 h7
  have hkn : d.cond.keys ≠ [] := by
    rcases hc : d.cond with _ | ⟨kt, l⟩
    · exact absurd hc hne
    · simp [Dict.keys]
  have hperm : gs.flatten.Perm d.cond.keys := by
    refine h4.trans ?_
    apply (List.perm_ext_iff_of_nodup (h.nodup.filter _) h.condSide.1).mpr
    intro k
    simp only [List.mem_filter, hkn, decide_eq_true_eq, false_or]
    constructor
    · exact fun hk => hk.2
    · exact fun hk => ⟨(h.keys k).mpr (Or.inr hk), hk⟩
  have hrk : r.keys = gs.flatten := by
    have hi : ∀ l : List Str, (l.map fun k => [k]).map [','].intercalate = l := by
      intro l
      rw [List.map_map]
      conv_rhs => rw [← List.map_id l]
      apply List.map_congr_left
      intro k _
      simp [List.intercalate]
    rw [h2]
    conv_lhs => rw [hgs]
    exact hi _
  have hent : ∀ kv ∈ r, Spec.LookEntry d [kv.1] kv.2 := by
    rw [hgs, List.forall₂_map_left_iff, ← hrk] at h3
    have : ∀ l : Dict Str LookVal, List.Forall₂ (fun a c => Spec.LookEntry d [a] c) l.keys l.vals →
        ∀ kv ∈ l, Spec.LookEntry d [kv.1] kv.2 := by
      intro l hl
      induction l with
      | nil => simp
      | cons kv l ih =>
        rcases hl with _ | ⟨ha, hb⟩
        intro kv' hkv'
        rcases List.mem_cons.mp hkv' with rfl | hkv'
        · exact ha
        · exact ih hb kv' hkv'
    exact this r h3
  have hmap : ∀ l : Dict Str LookVal, (∀ kv ∈ l, kv ∈ r) → ∃ vs : Dict Str Req,
      (l.mapM fun kv => (do return (kv.1, ← kv.2.req) : Py (Str × Req))) = .ok vs ∧
      vs.keys = l.keys ∧ ∀ kq ∈ vs, ∃ x : VArg ℚ, d.values kq.1 = some x.toVal ∧ kq.2 = Spec.held x := by
    intro l hl
    induction l with
    | nil => exact ⟨[], rfl, rfl, by simp⟩
    | cons kv l ih =>
      obtain ⟨vs, v1, v2, v3⟩ := ih fun kv hkv => hl kv (by simp [hkv])
      obtain ⟨k, lv⟩ := kv
      have hkv := hl (k, lv) (by simp)
      have he := hent _ hkv
      have hk : k ∈ d.cond.keys := by
        rw [← hperm.mem_iff, ← hrk]; exact List.mem_map.mpr ⟨_, hkv, rfl⟩
      obtain ⟨x, hx⟩ := hv k hk
      have hreq : lv.req = .ok (Spec.held x) := by
        rw [PD.values] at hx
        cases he with
        | scalar hg hs =>
          rw [hg] at hx
          simp only [Option.map_some, Option.some.injEq] at hx
          rcases x with x | xs
          · rename_i v
            rcases v with y | n | y | _ | ⟨s, ys⟩ | _ <;> simp [Val.flat, VArg.toVal] at hx
            · subst hx; rfl
            · rcases s with _ | ⟨n, s⟩ <;> simp [Val.flat] at hx
          · rename_i v
            rcases v with y | n | y | _ | ⟨s, ys⟩ | _ <;> simp [Val.flat, VArg.toVal] at hx
            rcases s with _ | ⟨n, s⟩
            · simp [Val.flat] at hx
            · simp [Val.issingleton] at hs
        | @array _ s xs hg hs =>
          rw [hg] at hx
          simp only [Option.map_some, Option.some.injEq] at hx
          rcases s with _ | ⟨n, s⟩
          · exact absurd rfl hs
          · rcases x with x | xs
            · simp [Val.flat, VArg.toVal] at hx
            · simp only [Val.flat, VArg.toVal, Val.arr.injEq] at hx
              rw [hx.2]; rfl
        | joint hl _ => simp at hl
      refine ⟨(k, Spec.held x) :: vs, ?_, ?_, ?_⟩
      · rw [List.mapM_cons, v1]
        simp only [hreq]
        rfl
      · rw [Dict.keys_cons, Dict.keys_cons, v2]
      · intro kq hkq
        rcases List.mem_cons.mp hkq with rfl | hkq
        · exact ⟨x, hx, rfl⟩
        · exact v3 kq hkq
  obtain ⟨vs, v1, v2, v3⟩ := hmap r fun _ h => h
  have hvk : vs.keys.Perm d.cond.keys := by rw [v2, hrk]; exact hperm
  refine ⟨vs, ?_, hvk, ?_⟩
  · simp only [PD.condReq, h1, bind, Except.bind]
    exact v1
  · intro k hk x hx
    obtain ⟨q, hq⟩ := Dict.get?_of_mem_keys (hvk.mem_iff.mpr hk)
    obtain ⟨y, y1, y2⟩ := v3 _ (Dict.get?_mem hq)
    simp only at y1 y2
    rw [hx] at y1
    rw [toVal_inj (Option.some.inj y1), ← y2]
    exact hq

/-- A distribution of the leafs given the roots, whatever has become of the leafs. -/
structure Likes (fmt : Val → Str) (D : SDep) (values : Dict Str Req) (e : PD) : Prop where
  wf : e.WF fmt
  pos : e.Pos
  own : ∀ k, Spec.OwnAxis e k
  marg : e.marg.keys = D.leafs.map Drawn.name
  cond : Spec.Texts fmt values D.roots e.cond
  values : ∀ v ∈ D.roots, ∃ x, Spec.Answers values v x ∧ e.values v.name = some x.toVal

/-- The roots called with the values they answer with. -/
def Spec.Priors (fmt : Val → Str) (D : SDep) (values : Dict Str Req) (ds : List PD) : Prop :=
  List.Forall₂ (fun (v : Drawn) d => ∃ x, Spec.Answers values v x ∧
    v.var.call fmt (Spec.held x) v.r v.perm = .ok d ∧ d.Pos) D.roots ds

theorem get?_texts {values : Dict Str Req} {vs : List Drawn} {m : Dict Str Str}
    (hn : (vs.map Drawn.name).Nodup) (h : Spec.Texts fmt values vs m) : ∀ v ∈ vs,
    ∃ x, Spec.Answers values v x ∧ Dict.get? m v.name = some (Spec.text fmt values v x) := by
  induction h with
  | nil => simp
  | @cons v kt vs m hab hrest ih =>
    rw [List.map_cons, List.nodup_cons] at hn
    obtain ⟨h1, x, hx, h2⟩ := hab
    intro w hw
    obtain ⟨k, t⟩ := kt
    simp only at h1 h2
    subst h1
    rcases List.mem_cons.mp hw with rfl | hw
    · exact ⟨x, hx, by simp [Dict.get?, h2]⟩
    · have hne : v.name ≠ w.name := fun h0 => hn.1 (h0 ▸ List.mem_map_of_mem hw)
      obtain ⟨y, hy, h3⟩ := ih hn.2 w hw
      exact ⟨y, hy, by simp only [Dict.get?, hne, if_false]; exact h3⟩

theorem evaluate_held (v : DRV) (x : VArg ℚ) (r : ℕ) (perm : List ℕ) :
    v.evaluate (Spec.held x) r perm = .ok x := by
  cases x <;> rfl

theorem text_held {values : Dict Str Req} {v : Drawn} {x : VArg ℚ} (hx : Spec.Answers values v x)
    (hall : Spec.request values v.name ≠ .all) :
    finalText fmt v.name (distName fmt v.name (Spec.held x)) x = Spec.text fmt values v x := by
  rcases x with x | xs
  · rfl
  · simp only [finalText, Spec.text, Spec.held]
    unfold Spec.Answers at hx
    cases hq : Spec.request values v.name with
    | all => exact absurd hq hall
    | scalar y => rw [hq] at hx; simp [DRV.evaluate] at hx
    | array ys => rfl
    | count n => rfl

theorem prior_marg {ps : List Part} {values : Dict Str Req} (hok : ∀ p ∈ ps, p.Ok fmt values)
    {prior : PD} (hP : Spec.Product (ps.map Part.d) prior) :
    prior.cond = [] ∧ prior.marg = sideOf fmt ps := by
  constructor
  · rw [List.eq_nil_iff_forall_not_mem]
    intro kt hkt
    obtain ⟨⟨a, ha, hk⟩, _⟩ := (hP.cond kt).mp hkt
    obtain ⟨p, hp, rfl⟩ := List.mem_map.mp ha
    rw [(hok p hp).cond] at hk
    simp at hk
  · rw [hP.marg, List.flatMap_map]
    have : ∀ l : List Part, (∀ p ∈ l, p ∈ ps) → l.flatMap (fun p => p.d.marg) = sideOf fmt l := by
      intro l hl
      induction l with
      | nil => rfl
      | cons p l ih =>
        rw [List.flatMap_cons, (hok p (hl p (by simp))).marg, ih fun p hp => hl p (by simp [hp])]
        rfl
    exact this ps fun _ hp => hp

theorem factors_of_parts {D : SDep} {values vs : Dict Str Req} {e : PD} {ps : List Part}
    (hD : Spec.Dep fmt D) (H : Likes fmt D values e) (hr : D.roots ≠ [])
    (hv : ps.map Part.v = D.roots) (hok : ∀ p ∈ ps, p.Ok fmt vs)
    (hpos : ∀ p ∈ ps, p.d.Pos)
    (hx : ∀ p ∈ ps, e.values p.v.name = some p.x.toVal)
    (ht : ∀ p ∈ ps, Dict.get? e.cond p.v.name =
      some (finalText fmt p.v.name (distName fmt p.v.name p.q) p.x))
    {prior : PD} (hw : prior.WF fmt) (hP : Spec.Product (ps.map Part.d) prior) :
    Spec.Factors fmt [prior, e] ∧ Spec.Plainly [prior, e] := by
  have hnames : (ps.map fun p => p.v.name) = D.roots.map Drawn.name := by
    rw [← hv, List.map_map]; rfl
  have hnLR : ((D.leafs ++ D.roots).map Drawn.name).Nodup := (hD.all.map _).nodup_iff.mpr hD.nodup
  rw [List.map_append, List.nodup_append] at hnLR
  obtain ⟨hnL, hnR, hdis⟩ := hnLR
  have hnp : (ps.map fun p => p.v.name).Nodup := by rw [hnames]; exact hnR
  obtain ⟨hcond, hmarg⟩ := prior_marg hok hP
  have hmk : prior.marg.keys = D.roots.map Drawn.name := by rw [hmarg, keys_sideOf, hnames]
  have hck : e.cond.keys = D.roots.map Drawn.name := keys_texts H.cond
  have hpk : ∀ k, k ∈ prior.keylist ↔ k ∈ D.roots.map Drawn.name := by
    intro k
    have := hw.keys k
    rw [hcond, hmk] at this
    simpa using this
  have hpv : ∀ p ∈ ps, prior.values p.v.name = some p.x.toVal := by
    intro p hp
    rw [hP.values p.d (List.mem_map_of_mem hp) p.v.name (by rw [(hok p hp).keylist]; simp),
      (hok p hp).values]
  have hroot : ∀ k ∈ D.roots.map Drawn.name, ∃ p ∈ ps, k = p.v.name := by
    intro k hk
    rw [← hnames] at hk
    obtain ⟨p, hp, rfl⟩ := List.mem_map.mp hk
    exact ⟨p, hp, rfl⟩
  have hppos : prior.Pos := by
    intro n hn
    obtain ⟨a, ha⟩ := List.mem_iff_getElem?.mp hn
    have hlt : a < prior.ndim := by
      rw [← hw.rank]; exact (List.getElem?_eq_some_iff.mp ha).1
    obtain ⟨k, hk⟩ := hw.cover a hlt
    obtain ⟨s, xs, hs, hg, hsh, _⟩ := hw.axisAt hk
    rw [ha] at hsh
    obtain rfl := Option.some.inj hsh
    obtain ⟨p, hp, rfl⟩ := hroot k ((hpk k).mp (Dict.mem_keys_of_get? hg))
    have h1 := hpv p hp
    rw [PD.values, hg] at h1
    rcases s with _ | ⟨m, s⟩
    · exact absurd rfl hs
    simp only [Option.map_some, Val.flat, Option.some.injEq] at h1
    rcases hx' : p.x with x | ys
    · rw [hx'] at h1; simp [VArg.toVal] at h1
    · rw [hx'] at h1
      simp only [VArg.toVal, Val.arr.injEq] at h1
      have := hpos p hp xs.length (by rw [(hok p hp).dshape, hx', h1.2]; simp [VArg.sizes])
      exact this
  have hunmet : ∀ kt ∈ e.cond, ¬ Spec.Unmet [prior, e] kt.1 := by
    intro kt hkt hu
    apply hu prior (by simp)
    rw [hmk, ← hck]
    exact List.mem_map.mpr ⟨kt, hkt, rfl⟩
  have hmne : e.marg ≠ [] := by
    intro h0
    have := H.marg
    rw [h0] at this
    exact hD.some (List.map_eq_nil_iff.mp this.symm)
  have hpne : prior.marg ≠ [] := by
    intro h0
    rw [h0] at hmk
    exact hr (List.map_eq_nil_iff.mp hmk.symm)
  have hsame : ∀ k ∈ prior.keylist, prior.values k = e.values k := by
    intro k hk
    obtain ⟨p, hp, rfl⟩ := hroot k ((hpk k).mp hk)
    rw [hpv p hp, hx p hp]
  refine ⟨⟨le_refl 2, ?_, ?_, ?_, ?_, ?_, ?_, ?_⟩, ⟨?_, ?_, ?_⟩⟩
  · simp only [List.mem_cons, List.not_mem_nil, or_false]
    rintro a (rfl | rfl)
    exacts [hw, H.wf]
  · simp only [List.mem_cons, List.not_mem_nil, or_false]
    rintro a (rfl | rfl)
    exacts [hppos, H.pos]
  · simp only [List.mem_cons, List.not_mem_nil, or_false]
    rintro a (rfl | rfl)
    exacts [hpne, hmne]
  · simp only [List.flatMap_cons, List.flatMap_nil, List.append_nil]
    rw [hmk, H.marg, List.nodup_append]
    exact ⟨hnR, hnL, fun a ha b hb h => hdis b hb a ha h.symm⟩
  · simp only [List.mem_cons, List.not_mem_nil, or_false]
    rintro a (rfl | rfl) b hb k hk hk'
    · rw [hcond] at hk; simp at hk
    · rcases hb with rfl | rfl
      · rw [hck] at hk
        obtain ⟨p, hp, rfl⟩ := hroot k hk
        rw [ht p hp, hmarg]
        symm
        exact Dict.get?_of_mem (by rw [keys_sideOf]; exact hnp) (List.mem_map.mpr ⟨p, hp, rfl⟩)
      · exact absurd hk (H.wf.disj k hk')
  · simp only [List.mem_cons, List.not_mem_nil, or_false]
    rintro a (rfl | rfl) b hb kt hkt hu
    · rw [hcond] at hkt; simp at hkt
    · exact absurd hu (hunmet kt hkt)
  · simp only [List.mem_cons, List.not_mem_nil, or_false]
    rintro a (rfl | rfl) b (rfl | rfl) k hk hk'
    · rfl
    · exact hsame k hk
    · exact (hsame k hk').symm
    · rfl
  · simp only [List.mem_cons, List.not_mem_nil, or_false]
    rintro a (rfl | rfl)
    exacts [hP.own, H.own]
  · simp [hcond]
  · simp only [List.pairwise_cons, List.mem_singleton, forall_eq, List.not_mem_nil, false_implies,
      implies_true, List.Pairwise.nil, and_true]
    intro k n hk
    exfalso
    by_cases hm : k ∈ prior.keylist
    · obtain ⟨p, hp, rfl⟩ := hroot k ((hpk k).mp hm)
      rw [hpv p hp] at hk
      rcases hx' : p.x with x | xs <;> rw [hx'] at hk <;> simp [VArg.toVal] at hk
    · rw [PD.values, Dict.get?_eq_none.mpr hm] at hk
      simp at hk

theorem answers_unique {values : Dict Str Req} {v : Drawn} {x y : VArg ℚ}
    (hx : Spec.Answers values v x) (hy : Spec.Answers values v y) : x = y := by
  rw [Spec.Answers] at hx hy
  rw [hx] at hy
  exact Except.ok.inj hy

/-- The request made to the roots, and what the prior must be. -/
theorem joint_core {D : SDep} {values : Dict Str Req} {e : PD} {ds : List PD}
    (hD : Spec.Dep fmt D) (H : Likes fmt D values e) (hr : D.roots ≠ [])
    (hds : Spec.Priors fmt D values ds) :
    ∃ vs, e.condReq = .ok vs ∧ Spec.Calls fmt D.roots vs ds ∧
      (∀ v ∈ D.roots, ∀ x, Spec.Answers values v x → Dict.get? vs v.name = some (Spec.held x)) ∧
      ∀ prior : PD, prior.WF fmt → Spec.Product ds prior →
        (∀ v ∈ D.roots, Spec.request values v.name ≠ .all) →
        Spec.Factors fmt [prior, e] ∧ Spec.Plainly [prior, e] := by
  have hck : e.cond.keys = D.roots.map Drawn.name := keys_texts H.cond
  have hcne : e.cond ≠ [] := by
    intro h0
    rw [h0] at hck
    exact hr (List.map_eq_nil_iff.mp hck.symm)
  have hnLR : ((D.leafs ++ D.roots).map Drawn.name).Nodup := (hD.all.map _).nodup_iff.mpr hD.nodup
  rw [List.map_append, List.nodup_append] at hnLR
  obtain ⟨_, hnR, _⟩ := hnLR
  obtain ⟨vs, v1, v2, v3⟩ := condReq_ok H.wf H.own hcne (by
    intro k hk
    rw [hck] at hk
    obtain ⟨v, hv, rfl⟩ := List.mem_map.mp hk
    obtain ⟨x, _, hx⟩ := H.values v hv
    exact ⟨x, hx⟩)
  have hget : ∀ v ∈ D.roots, ∀ x, Spec.Answers values v x →
      Dict.get? vs v.name = some (Spec.held x) := by
    intro v hv x hx
    obtain ⟨y, hy, hy'⟩ := H.values v hv
    rw [answers_unique hx hy]
    exact v3 v.name (by rw [hck]; exact List.mem_map_of_mem hv) y hy'
  have hroots : ∀ v ∈ D.roots, v ∈ D.vars := fun v hv =>
    hD.all.mem_iff.mp (List.mem_append_right _ hv)
  have C : Spec.Calls fmt D.roots vs ds := by
    refine ⟨hr, fun v hv => hD.good v (hroots v hv), hnR, ?_, ?_, ?_, ?_⟩
    · rw [v2.nodup_iff, hck]; exact hnR
    · intro k hk; rw [v2.mem_iff, hck] at hk; exact hk
    · have : ∀ (l : List Drawn) (es : List PD), (∀ v ∈ l, v ∈ D.roots) →
          List.Forall₂ (fun (v : Drawn) d => ∃ x, Spec.Answers values v x ∧
            v.var.call fmt (Spec.held x) v.r v.perm = .ok d ∧ d.Pos) l es →
          List.Forall₂ (fun (v : Drawn) d =>
            v.var.call fmt (Spec.request vs v.name) v.r v.perm = .ok d) l es := by
        intro l es hl hf
        induction hf with
        | nil => exact .nil
        | @cons v d _ _ hab _ ih =>
          obtain ⟨x, h1, h2, _⟩ := hab
          refine .cons ?_ (ih fun v hv => hl v (by simp [hv]))
          rw [Spec.request, hget v (hl v (by simp)) x h1]
          exact h2
      exact this _ _ (fun _ h => h) hds
    · intro d hd
      obtain ⟨i, hi, rfl⟩ := List.mem_iff_getElem.mp hd
      obtain ⟨x, _, _, h3⟩ := List.forall₂_iff_get.mp hds |>.2 i (by rw [hds.length_eq]; exact hi) hi
      exact h3
  refine ⟨vs, v1, C, hget, ?_⟩
  intro prior hw hP hall
  obtain ⟨ps, p1, p2, p3⟩ := parts_of_calls C.good C.calls
  have hx : ∀ p ∈ ps, ∃ x, Spec.Answers values p.v x ∧ p.q = Spec.held x ∧ p.x = x ∧
      e.values p.v.name = some x.toVal := by
    intro p hp
    have hv : p.v ∈ D.roots := by rw [← p1]; exact List.mem_map_of_mem hp
    obtain ⟨x, hx, hx'⟩ := H.values p.v hv
    have hq : p.q = Spec.held x := by
      rw [← (p3 p hp).req, Spec.request, hget p.v hv x hx]; rfl
    have he := (p3 p hp).eval
    rw [hq, evaluate_held] at he
    exact ⟨x, hx, hq, (Except.ok.inj he).symm, hx'⟩
  refine factors_of_parts hD H hr p1 p3 ?_ ?_ ?_ hw (by rw [p2]; exact hP)
  · intro p hp
    exact C.pos p.d (by rw [← p2]; exact List.mem_map_of_mem hp)
  · intro p hp
    obtain ⟨x, _, _, h3, h4⟩ := hx p hp
    rw [h4, h3]
  · intro p hp
    have hv : p.v ∈ D.roots := by rw [← p1]; exact List.mem_map_of_mem hp
    obtain ⟨x, h1, h2, h3, _⟩ := hx p hp
    obtain ⟨y, y1, y2⟩ := get?_texts hnR H.cond p.v hv
    rw [answers_unique h1 y1] at h2 h3
    rw [y2, h2, h3, text_held y1 (hall p.v hv)]

theorem likes_called {D : SDep} {values : Dict Str Req} {f : (Str → Option ℚ) → ℝ} {d : PD}
    (hD : Spec.Dep fmt D) (h : Spec.Called fmt D values f d) (hpos : d.Pos) : Likes fmt D values d := by
  refine ⟨h.wf, hpos, h.own, keys_texts h.marg, h.cond, ?_⟩
  intro v hv
  obtain ⟨x, h1, h2, _⟩ := h.values v (hD.all.mem_iff.mp (List.mem_append_right _ hv))
  exact ⟨x, h1, h2⟩

theorem likes_counted {D : SDep} {values : Dict Str Req} {f : (Str → Option ℚ) → ℝ} {d e : PD}
    {ks : List Str} (hD : Spec.Dep fmt D) (h : Spec.Called fmt D values f d) (hpos : d.Pos)
    (hw : e.WF fmt) (hC : Spec.Counted d ks e) (hks : ∀ k ∈ ks, k ∈ D.leafs.map Drawn.name) :
    Likes fmt D values e := by
  have hnLR : ((D.leafs ++ D.roots).map Drawn.name).Nodup := (hD.all.map _).nodup_iff.mpr hD.nodup
  rw [List.map_append, List.nodup_append] at hnLR
  obtain ⟨_, _, hdis⟩ := hnLR
  have hnk : ∀ k b, e.axis k = some b → k ∉ ks := by
    intro k b hb hk
    rw [(hC.counts k hk).1] at hb
    simp at hb
  refine ⟨hw, ?_, ?_, by rw [hC.marg]; exact keys_texts h.marg, by rw [hC.cond]; exact h.cond, ?_⟩
  · intro n hn
    obtain ⟨a, ha⟩ := List.mem_iff_getElem?.mp hn
    have hlt : a < e.ndim := by
      rw [← hw.rank]; exact (List.getElem?_eq_some_iff.mp ha).1
    obtain ⟨k, hk⟩ := hw.cover a hlt
    obtain ⟨s, xs, hs, hg, hsh, _⟩ := hw.axisAt hk
    rw [ha] at hsh
    obtain rfl := Option.some.inj hsh
    obtain ⟨k1, k2⟩ := hC.kept k (hnk k a hk)
    rw [hk] at k2
    obtain ⟨b, hb⟩ := Option.isSome_iff_exists.mp k2.symm
    obtain ⟨s', xs', hs', hg', hsh', _⟩ := h.wf.axisAt hb
    rw [PD.values, PD.values, hg, hg'] at k1
    rcases s with _ | ⟨m, s⟩
    · exact absurd rfl hs
    rcases s' with _ | ⟨m', s'⟩
    · exact absurd rfl hs'
    simp only [Option.map_some, Val.flat, Option.some.injEq, Val.arr.injEq] at k1
    rw [k1.2]
    exact hpos _ (List.mem_of_getElem? hsh')
  · intro k k' b hk hk'
    have h1 := (hC.kept k (hnk k b hk)).2
    have h2 := (hC.kept k' (hnk k' b hk')).2
    rw [hk] at h1
    rw [hk'] at h2
    obtain ⟨a, ha⟩ := Option.isSome_iff_exists.mp h1.symm
    obtain ⟨a', ha'⟩ := Option.isSome_iff_exists.mp h2.symm
    have e1 := hC.order k k' a a' b b ha ha' hk hk'
    have e2 := hC.order k' k a' a b b ha' ha hk' hk
    have : a' = a := by omega
    rw [this] at ha'
    exact h.own k k' a ha ha'
  · intro v hv
    obtain ⟨x, h1, h2, _⟩ := h.values v (hD.all.mem_iff.mp (List.mem_append_right _ hv))
    refine ⟨x, h1, ?_⟩
    rw [(hC.kept v.name ?_).1]
    · exact h2
    · intro hk
      exact hdis _ (hks _ hk) _ (List.mem_map_of_mem hv) rfl

/-- Multiplying by the prior on a linear scale. -/
theorem joint_linear {D : SDep} {values : Dict Str Req} {e : PD} {ds : List PD} {iid : Iid}
    (hD : Spec.Dep fmt D) (H : Likes fmt D values e) (hc : D.call fmt values iid = .ok e)
    (hr : D.roots ≠ []) (hall : ∀ v ∈ D.roots, Spec.request values v.name ≠ .all)
    (hds : Spec.Priors fmt D values ds) (hlin : ∀ d ∈ ds, d.pscale.iscomplex = false)
    (he : e.pscale.iscomplex = false) :
    ∃ prior r, Spec.Product ds prior ∧ D.callJoint fmt values iid = .ok r ∧ r.WF fmt ∧
      Spec.Product [prior, e] r := by
  obtain ⟨vs, v1, C, _, hF⟩ := joint_core hD H hr hds
  obtain ⟨prior, q1, q2, q3, q4⟩ := C63_linear_partial C hlin
  obtain ⟨F, G⟩ := hF prior q2 q3 hall
  obtain ⟨r, r1, r2, r3, _⟩ := C19_linear_partial F G (by
    intro a ha
    simp only [List.mem_cons, List.not_mem_nil, or_false] at ha
    rcases ha with rfl | rfl
    · rw [q4]; rfl
    · exact he)
  refine ⟨prior, r, q3, ?_, r2, r3⟩
  simp only [SDep.callJoint, hc, v1, bind, Except.bind, if_neg hr, q1, r1]
  rfl

/-- Multiplying by the prior on a logarithmic scale. -/
theorem joint_log {D : SDep} {values : Dict Str Req} {e : PD} {ds : List PD} {iid : Iid}
    (hD : Spec.Dep fmt D) (H : Likes fmt D values e) (hc : D.call fmt values iid = .ok e)
    (hr : D.roots ≠ []) (hall : ∀ v ∈ D.roots, Spec.request values v.name ≠ .all)
    (hds : Spec.Priors fmt D values ds) (hlin : ∀ d ∈ ds, d.pscale = .lin 1)
    (he : e.pscale = complexZero)
    (hz : ∀ prior, Spec.Product ds prior → ∀ i ∈ idx prior.shape, npz ≤ prior.at i) :
    ∃ prior r, Spec.Product ds prior ∧ D.callJoint fmt values iid = .ok r ∧ r.WF fmt ∧
      Spec.Product [prior, e] r := by
  obtain ⟨vs, v1, C, _, hF⟩ := joint_core hD H hr hds
  obtain ⟨prior, q1, q2, q3, q4⟩ := C63_linear_partial C fun d hd => by rw [hlin d hd]; rfl
  have q5 : prior.pscale = .lin 1 := by
    rw [q4]
    congr 1
    apply List.prod_eq_one
    intro y hy
    obtain ⟨d, hd, rfl⟩ := List.mem_map.mp hy
    rw [hlin d hd]; rfl
  obtain ⟨F, G⟩ := hF prior q2 q3 hall
  obtain ⟨r, r1, r2, r3, _⟩ := C19_log_partial F G
    (by simp [q5, he, Spec.Valid, complexZero])
    (by simp [he, complexZero, PScale.iscomplex])
    (by simp [q5, he, Spec.factor, Spec.offset, complexZero])
    (by
      intro a ha hca i hi
      simp only [List.mem_cons, List.not_mem_nil, or_false] at ha
      rcases ha with rfl | rfl
      · have := hz a q3 i hi
        rw [PD.at, q5] at this
        simpa [Spec.value] using this
      · rw [he] at hca; simp [complexZero, PScale.iscomplex] at hca)
  refine ⟨prior, r, q3, ?_, r2, r3⟩
  simp only [SDep.callJoint, hc, v1, bind, Except.bind, if_neg hr, q1, r1]
  rfl

/-- C73, `joint=True` on linear scales: the distribution of the roots, called with the values
they have been given, times the conditional distribution of the leafs.  Missing: roots
left to their whole sets (`C73_joint_claim_fails`). -/
theorem C73_joint_partial {D : SDep} {values : Dict Str Req} {f : (Str → Option ℚ) → ℝ} {ds : List PD}
    (hD : Spec.Dep fmt D) (hA : Spec.Asks D values) (hf : Spec.Pointwise D.prob f)
    (hr : D.roots ≠ []) (hall : ∀ v ∈ D.roots, Spec.request values v.name ≠ .all)
    (hds : Spec.Priors fmt D values ds) (hlin : ∀ d ∈ ds, d.pscale.iscomplex = false)
    (hs : D.pscale.iscomplex = false) :
    ∃ d prior r, Spec.Called fmt D values f d ∧ Spec.Product ds prior ∧
      D.callJoint fmt values (.bool false) = .ok r ∧ r.WF fmt ∧ Spec.Product [prior, d] r := by
  obtain ⟨ps, L, R, vals, dims, E⟩ := evald hD hA
  obtain ⟨a, d, h1, _, h2, h3, _, _, h6, _⟩ := sd_called hD E hf
  have hc : D.call fmt values (.bool false) = .ok d := by
    simp only [SDep.call, E.parse, E.eval, h1, bind, Except.bind, SDep.evalIid, SDep.iidIter, if_true]
    exact h2
  obtain ⟨prior, r, r1, r2, r3, r4⟩ := joint_linear hD (likes_called hD h3 (sd_pos E h6)) hc hr hall hds
    hlin (by rw [h3.pscale]; exact hs)
  exact ⟨d, prior, r, h3, r1, r2, r3, r4⟩

/-- The likelihood of the observations as the second factor. -/
theorem iid_likes {D : SDep} {values : Dict Str Req} {f : (Str → Option ℚ) → ℝ}
    (ks : List Str) (hD : Spec.Dep fmt D) (hA : Spec.Asks D values) (hf : Spec.Pointwise D.prob f)
    (hO : Spec.Observed fmt D values ks) (hs : D.pscale = .lin 1 ∨ D.pscale = complexZero) :
    ∃ d like, Spec.Called fmt D values f d ∧ D.call fmt values (.keys ks) = .ok like ∧
      Likes fmt D values like ∧ Spec.Counted d ks like ∧
      like.pscale = D.pscale ∧ ∀ j ∈ idx like.shape, like.at j = Spec.prodAt d like j := by
  obtain ⟨d, like, c1, c2, c3, c4, c5, c6, c7⟩ := C73_iid_keys_partial ks hD hA hf hO hs
  obtain ⟨ps, L, R, vals, dims, d', E, e1, e2, e3, _⟩ :=
    iid_core (iid := .keys ks) hD hA hf hO.some
  rw [c1] at e1
  obtain rfl := Except.ok.inj e1
  exact ⟨d, like, c2, c3, likes_counted hD c2 e3 c4 c5 hO.leafs, c5, c6, c7⟩

/-- C73, `iid` and `joint` together on a linear scale: the distribution of the roots times the
likelihood of the observations.  Missing: as in `C73_iid_partial` and
`C73_joint_partial`. -/
theorem C73_joint_iid_partial {D : SDep} {values : Dict Str Req} {f : (Str → Option ℚ) → ℝ}
    {ds : List PD} (ks : List Str)
    (hD : Spec.Dep fmt D) (hA : Spec.Asks D values) (hf : Spec.Pointwise D.prob f)
    (hO : Spec.Observed fmt D values ks)
    (hr : D.roots ≠ []) (hall : ∀ v ∈ D.roots, Spec.request values v.name ≠ .all)
    (hds : Spec.Priors fmt D values ds) (hlin : ∀ d ∈ ds, d.pscale.iscomplex = false)
    (hs : D.pscale = .lin 1) :
    ∃ d like prior r, Spec.Called fmt D values f d ∧ Spec.Counted d ks like ∧
      (∀ j ∈ idx like.shape, like.at j = Spec.prodAt d like j) ∧ Spec.Product ds prior ∧
      D.callJoint fmt values (.keys ks) = .ok r ∧ r.WF fmt ∧ Spec.Product [prior, like] r := by
  obtain ⟨d, like, c1, c2, c3, c4, c5, c6⟩ := iid_likes ks hD hA hf hO (.inl hs)
  obtain ⟨prior, r, r1, r2, r3, r4⟩ := joint_linear hD c3 c2 hr hall hds hlin (by rw [c5, hs]; rfl)
  exact ⟨d, like, prior, r, c1, c4, c6, r1, r2, r3, r4⟩

/-- C73, the same with the probability function on the scale `'log'`, if the roots'
probabilities are not smaller than the smallest number whose logarithm is taken. -/
theorem C73_joint_iid_log_partial {D : SDep} {values : Dict Str Req} {f : (Str → Option ℚ) → ℝ}
    {ds : List PD} (ks : List Str)
    (hD : Spec.Dep fmt D) (hA : Spec.Asks D values) (hf : Spec.Pointwise D.prob f)
    (hO : Spec.Observed fmt D values ks)
    (hr : D.roots ≠ []) (hall : ∀ v ∈ D.roots, Spec.request values v.name ≠ .all)
    (hds : Spec.Priors fmt D values ds) (hlin : ∀ d ∈ ds, d.pscale = .lin 1)
    (hz : ∀ prior, Spec.Product ds prior → ∀ i ∈ idx prior.shape, npz ≤ prior.at i)
    (hs : D.pscale = complexZero) :
    ∃ d like prior r, Spec.Called fmt D values f d ∧ Spec.Counted d ks like ∧
      (∀ j ∈ idx like.shape, like.at j = Spec.prodAt d like j) ∧ Spec.Product ds prior ∧
      D.callJoint fmt values (.keys ks) = .ok r ∧ r.WF fmt ∧ Spec.Product [prior, like] r := by
  obtain ⟨d, like, c1, c2, c3, c4, c5, c6⟩ := iid_likes ks hD hA hf hO (.inr hs)
  obtain ⟨prior, r, r1, r2, r3, r4⟩ := joint_log hD c3 c2 hr hall hds hlin (by rw [c5, hs]) hz
  exact ⟨d, like, prior, r, c1, c4, c6, r1, r2, r3, r4⟩

/-- C73: `iid=True` asks for the same as the names of all leafs. -/
theorem C73_iid_true (D : SDep) (values : Dict Str Req) :
    D.call fmt values (.bool true) = D.call fmt values (.keys (D.leafs.map Drawn.name)) ∧
    D.callJoint fmt values (.bool true) = D.callJoint fmt values (.keys (D.leafs.map Drawn.name)) :=
  ⟨rfl, rfl⟩

/-- C73: with a scale `c` other than one the likelihood is `c` times too large. -/
theorem C73_iid_factor {D : SDep} {values : Dict Str Req} {f : (Str → Option ℚ) → ℝ} {c : ℝ}
    (ks : List Str) (hD : Spec.Dep fmt D) (hA : Spec.Asks D values) (hf : Spec.Pointwise D.prob f)
    (hO : Spec.Observed fmt D values ks) (hs : D.pscale = .lin c) (hc : 0 < c) (hc1 : c ≠ 1) :
    ∃ d like, D.call fmt values (.bool false) = .ok d ∧ Spec.Called fmt D values f d ∧
      D.call fmt values (.keys ks) = .ok like ∧ like.WF fmt ∧ Spec.Counted d ks like ∧
      ∀ j ∈ idx like.shape, like.at j = c * Spec.prodAt d like j := by
  obtain ⟨ps, L, R, vals, dims, d, E, c1, c2, c3, _, _, _, _, _, _, c4⟩ :=
    iid_core (iid := .keys ks) hD hA hf hO.some
  obtain ⟨like, l1, l2, l3, l4⟩ := C27_extra_factor fmt d ks c c2.wf c3
    (by rw [c2.pscale]; exact hs) hc hc1 (observed_axes hD c2 hO) (observed_closed hD c2 hO)
    hO.texts c2.order
  exact ⟨d, like, c1, c2, by rw [c4]; exact l1, l2, l3, l4⟩

/-- C73: a product over a root, or over anything else than a leaf, is refused. -/
theorem C73_iid_root_refused {D : SDep} {values : Dict Str Req} {f : (Str → Option ℚ) → ℝ}
    {ks : List Str} (hD : Spec.Dep fmt D) (hA : Spec.Asks D values) (hf : Spec.Pointwise D.prob f)
    {k : Str} (hk : k ∈ ks) (hl : k ∉ D.leafs.map Drawn.name) :
    Raises (D.call fmt values (.keys ks)) ∧ Raises (D.callJoint fmt values (.keys ks)) := by
  have hne : ks ≠ [] := by rintro rfl; simp at hk
  obtain ⟨ps, L, R, vals, dims, d, E, c1, c2, c3, _, _, _, _, _, _, c4⟩ :=
    iid_core (iid := .keys ks) hD hA hf hne
  have h : D.call fmt values (.keys ks) = .error .assertion := by
    rw [c4]
    show d.prod fmt ks = _
    rw [PD.prod, if_neg]
    intro h0
    rw [List.all_eq_true] at h0
    exact hl (by rw [← keys_texts c2.marg]; simpa using h0 k hk)
  exact ⟨⟨_, h⟩, ⟨_, by rw [SDep.callJoint, h]; rfl⟩⟩

/-- C73: a product over a leaf that has been given a single number is refused. -/
theorem C73_iid_scalar_refused {D : SDep} {values : Dict Str Req} {f : (Str → Option ℚ) → ℝ}
    {ks : List Str} (hD : Spec.Dep fmt D) (hA : Spec.Asks D values) (hf : Spec.Pointwise D.prob f)
    {v : Drawn} (hv : v ∈ D.leafs) (hk : v.name ∈ ks) {x : ℚ} (hx : Spec.Answers values v (.scalar x)) :
    Raises (D.call fmt values (.keys ks)) ∧ Raises (D.callJoint fmt values (.keys ks)) := by
  have hne : ks ≠ [] := by rintro h0; rw [h0] at hk; simp at hk
  obtain ⟨ps, L, R, vals, dims, d, E, c1, c2, c3, _, _, _, _, _, _, c4⟩ :=
    iid_core (iid := .keys ks) hD hA hf hne
  have h : Raises (D.call fmt values (.keys ks)) := by
    rw [c4]
    show Raises (d.prod fmt ks)
    rw [PD.prod]
    split
    · obtain ⟨y, y1, y2, _⟩ := c2.values v (hD.all.mem_iff.mp (List.mem_append_left _ hv))
      obtain rfl := answers_unique hx y1
      rw [PD.values] at y2
      obtain ⟨w, hw, hw'⟩ := Option.map_eq_some_iff.mp y2
      have hws : ∀ n m data, w ≠ .arr (n :: m) data := by
        rintro n m data rfl
        simp [Val.flat, VArg.toVal] at hw'
      obtain ⟨e, he⟩ := foldlM_raises (f := prodStep d ks) (Dict.get?_mem hw) (by
        intro st
        rw [prodStep, if_pos hk]
        split
        · rename_i n m data h0
          exact absurd h0 (hws n m data)
        · exact ⟨_, rfl⟩) ⟨d.marg, [], [], 0, []⟩
      exact ⟨e, by rw [he]; rfl⟩
    · exact ⟨_, rfl⟩
  refine ⟨h, ?_⟩
  obtain ⟨e, he⟩ := h
  exact ⟨e, by rw [SDep.callJoint, he]; rfl⟩

/-- C73: without roots there is no joint distribution. -/
theorem C73_no_roots_refused (D : SDep) (values : Dict Str Req) (iid : Iid) (hr : D.roots = []) :
    Raises (D.callJoint fmt values iid) := by
  rw [SDep.callJoint]
  rcases D.call fmt values iid with e | d
  · exact ⟨e, rfl⟩
  simp only [bind, Except.bind]
  rcases d.condReq with e | vs
  · exact ⟨e, rfl⟩
  · simp only [if_pos hr]
    exact ⟨_, rfl⟩

/-! ### Functions that take the product themselves -/

/-- A probability function that returns one number for all the values it is given. -/
def Spec.Summing (F : Dict Str Laid → Dict Str (Option ℕ) → Py Arr)
    (g : (Str → Option (VArg ℚ)) → ℝ) : Prop :=
  ∀ vals dims, ∃ a, F vals dims = .ok a ∧ a.shape = [] ∧
    a.get [] = g fun k => (Dict.get? vals k).map Laid.vals

/-- Building a distribution whose values are all single. -/
theorem singles_ok {vs L R : List Drawn} (hne : vs ≠ []) (hg : ∀ v ∈ vs, Spec.GoodName fmt v.var)
    (hn : (vs.map Drawn.name).Nodup) (hLR : (L ++ R).Perm vs) {V : Dict Str Val}
    (hVk : V.keys.Perm (vs.map Drawn.name))
    (hV : ∀ k w, Dict.get? V k = some w → w.issingleton = true ∧ Spec.Entry k (eqText fmt k w))
    {dims : Dict Str (Option ℕ)} (e4 : dims.keys.Nodup) (e5 : ∀ k ∈ dims.keys, k ∈ V.keys)
    (e6 : ∀ k, (Dict.get? dims k).join = none) {m c : Dict Str Str} (hm : Spec.Side m)
    (hc : Spec.Side c) (hmk : m.keys = L.map Drawn.name) (hck : c.keys = R.map Drawn.name)
    (a : Arr) (ha : a.shape = []) {s : PScale} (hse : evalPscale s.spec = .ok s) :
    ∃ d, pdInit fmt (margcondStr m c) V (some dims) a s.spec = .ok d ∧ d.WF fmt ∧
      d.marg.keys = L.map Drawn.name ∧ d.cond.keys = R.map Drawn.name ∧ d.pscale = s ∧
      d.prob = a ∧ d.shape = [] ∧ (∀ k, d.values k = (Dict.get? V k).map Val.flat) ∧
      ∀ k, d.axis k = none := by
  have hnLR : ((L ++ R).map Drawn.name).Nodup := (hLR.map _).nodup_iff.mpr hn
  rw [List.map_append, List.nodup_append] at hnLR
  obtain ⟨hnL, hnR, hdis⟩ := hnLR
  have hmem : ∀ k, k ∈ V.keys ↔ k ∈ L.map Drawn.name ∨ k ∈ R.map Drawn.name := by
    intro k
    rw [hVk.mem_iff, ← (hLR.map _).mem_iff, List.map_append, List.mem_append]
  have hVn : V.keys.Nodup := hVk.nodup_iff.mpr hn
  set side : List Drawn → Dict Str Str := fun K =>
    K.map fun v => (v.name, eqText fmt v.name ((Dict.get? V v.name).getD .setnone)) with hside
  have hsk : ∀ K, (side K).keys = K.map Drawn.name := by
    intro K; simp [hside, Dict.keys, Function.comp_def]
  have hS : ∀ K : List Drawn, (K.map Drawn.name).Nodup → (∀ v ∈ K, v.name ∈ V.keys) →
      Spec.Side (side K) := by
    intro K hK hKV
    refine ⟨by rw [hsk]; exact hK, ?_⟩
    intro kt hkt
    obtain ⟨v, hv, rfl⟩ := List.mem_map.mp hkt
    obtain ⟨w, hw⟩ := Dict.get?_of_mem_keys (hKV v hv)
    simp only [hw, Option.getD_some]
    exact (hV _ w hw).2
  have hsg : ∀ K : List Drawn, (K.map Drawn.name).Nodup → ∀ k w, Dict.get? V k = some w →
      k ∈ K.map Drawn.name → Dict.get? (side K) k = some (eqText fmt k w) := by
    intro K hK k w hw hk
    obtain ⟨v, hv, rfl⟩ := List.mem_map.mp hk
    refine Dict.get?_of_mem (by rw [hsk]; exact hK) (List.mem_map.mpr ⟨v, hv, ?_⟩)
    simp only [hw, Option.getD_some]
  have hB : BuildArgs fmt (side L) (side R) V dims [] := by
    refine { ne := ?_, nodup := hVn, allowed := ?_, margSide := ?_, condSide := ?_, disj := ?_,
             keys := ?_, dimNodup := e4, dimKeys := e5, single := ?_, array := ?_, cover := ?_ }
    · intro h0
      rw [h0] at hVk
      have := hVk.length_eq
      simp only [Dict.keys_nil, List.length_nil, List.length_map] at this
      exact hne (List.length_eq_zero_iff.mp this.symm)
    · intro k hk
      obtain ⟨v, hv, rfl⟩ := List.mem_map.mp (hVk.mem_iff.mp hk)
      exact (hg v hv).allowed
    · exact hS L hnL fun v hv => (hmem _).mpr (.inl (List.mem_map_of_mem hv))
    · exact hS R hnR fun v hv => (hmem _).mpr (.inr (List.mem_map_of_mem hv))
    · intro k hk hk'
      rw [hsk] at hk hk'
      exact hdis k hk k hk' rfl
    · intro k; rw [hsk, hsk]; exact hmem k
    · intro k w hw _
      refine ⟨e6 k, ?_⟩
      rcases (hmem k).mp (Dict.mem_keys_of_get? hw) with h | h
      · exact .inl (hsg L hnL k w hw h)
      · exact .inr (hsg R hnR k w hw h)
    · intro k w hw h0
      rw [(hV k w hw).1] at h0; cases h0
    · intro b hb; simp at hb
  obtain ⟨d, d1, d2, d3, d4, d5, d6, d7, d8, d9⟩ := pdInit_ok hB a ha s.spec s hse
  refine ⟨d, ?_, d2, by rw [d3, hsk], by rw [d4, hsk], d9, d8, d7, hB.values d5, ?_⟩
  · rw [← d1]
    apply pdInit_named hB hm hc (by rw [hsk]; exact hmk) (by rw [hsk]; exact hck)
    intro k w hw h0
    rw [(hV k w hw).1] at h0; cases h0
  · intro k; rw [d6, e6]

theorem shapeOf_one {ps : List Part} (hn : (ps.map fun p => p.v.name).Nodup) {p : Part} (hp : p ∈ ps)
    {xs : List ℚ} (hx : p.x = .array xs) (ho : ∀ q ∈ ps, q.v.name ≠ p.v.name → ∃ y, q.x = .scalar y) :
    shapeOf (named ps) = [xs.length] := by
  obtain ⟨l1, l2, rfl⟩ := List.append_of_mem hp
  rw [List.map_append, List.map_cons, List.nodup_append] at hn
  obtain ⟨_, hn2, hdis⟩ := hn
  rw [List.nodup_cons] at hn2
  have h0 : ∀ l : List Part, (∀ q ∈ l, ∃ y, q.x = .scalar y) → shapeOf (named l) = [] := by
    intro l hl
    simp only [shapeOf, named, List.flatMap_eq_nil_iff, List.mem_map]
    rintro _ ⟨q, hq, rfl⟩
    obtain ⟨y, hy⟩ := hl q hq
    simp [hy, VArg.sizes]
  have e1 := h0 l1 fun q hq => ho q (by simp [hq]) fun h =>
    hdis q.v.name (List.mem_map.mpr ⟨q, hq, rfl⟩) p.v.name (by simp) h
  have e2 := h0 l2 fun q hq => ho q (by simp [hq]) fun h =>
    hn2.1 (List.mem_map.mpr ⟨q, hq, h⟩)
  have happ : ∀ l l' : List Part, shapeOf (named (l ++ l')) = shapeOf (named l) ++ shapeOf (named l') := by
    intro l l'; simp [shapeOf, named]
  have hone : shapeOf (named [p]) = [xs.length] := by simp [shapeOf, named, hx, VArg.sizes]
  rw [happ, e1, List.nil_append, ← List.singleton_append, happ, hone, e2]
  rfl

/-- C73, with a probability function that takes the product over the observations itself: with
observations of one leaf and numbers for all other variables, the observations are
replaced by their number and the probability is what the function returns.  Missing:
observations of several leafs and several values of a root (`C73_user_claim_fails`). -/
theorem C73_user_partial {D : SDep} {values : Dict Str Req} {g : (Str → Option (VArg ℚ)) → ℝ}
    (hD : Spec.Dep fmt D) (hA : Spec.Asks D values) (hF : Spec.Summing D.prob g)
    {v : Drawn} (hv : v ∈ D.leafs) {xs : List ℚ} (hx : Spec.Answers values v (.array xs))
    (ho : ∀ w ∈ D.vars, w.name ≠ v.name → ∃ y, Spec.Answers values w (.scalar y))
    (ht : Spec.Entry v.name (eqText fmt v.name (.setint xs.length))) :
    ∃ d, D.call fmt values (.keys [v.name]) = .ok d ∧ d.WF fmt ∧
      d.marg.keys = D.leafs.map Drawn.name ∧ d.cond.keys = D.roots.map Drawn.name ∧
      d.pscale = D.pscale ∧ d.shape = [] ∧ d.values v.name = some (.setint xs.length) ∧
      (∀ w ∈ D.vars, w.name ≠ v.name → ∀ y, Spec.Answers values w (.scalar y) →
        d.values w.name = some (.scalar y)) ∧
      ∃ G : Str → Option (VArg ℚ), d.at [] = Spec.value D.pscale (g G) ∧
        (∀ w ∈ D.vars, ∃ x, Spec.Answers values w x ∧ G w.name = some x) ∧
        ∀ k ∉ D.vars.map Drawn.name, G k = none := by
  obtain ⟨ps, L, R, vals, dims, E⟩ := evald hD hA
  obtain ⟨a, a1, a2, a3⟩ := hF vals dims
  have hvv : v ∈ D.vars := hD.all.mem_iff.mp (List.mem_append_left _ hv)
  have hnames : ∀ K : List Part, (K.map fun p => p.v.name) = (K.map Part.v).map Drawn.name := by
    intro K; rw [List.map_map]; rfl
  have hpsn : (ps.map fun p => p.v.name) = D.vars.map Drawn.name := by rw [hnames, E.vars]
  have hans : ∀ p ∈ ps, Spec.Answers values p.v p.x := fun p hp => by
    rw [Spec.Answers, (E.asked p hp).req]; exact (E.asked p hp).eval
  obtain ⟨p, hp, hpv⟩ := List.mem_map.mp (by rw [E.vars]; exact hvv : v ∈ ps.map Part.v)
  have hpx : p.x = .array xs := answers_unique (hans p hp) (by rw [hpv]; exact hx)
  have hvar : ∀ q ∈ ps, q.v ∈ D.vars := fun q hq => by rw [← E.vars]; exact List.mem_map_of_mem hq
  have hos : ∀ q ∈ ps, q.v.name ≠ v.name → ∃ y, q.x = .scalar y := by
    intro q hq hne
    obtain ⟨y, hy⟩ := ho q.v (hvar q hq) hne
    exact ⟨y, answers_unique (hans q hq) hy⟩
  have hsh : shapeOf (named ps) = [xs.length] := shapeOf_one E.nodup hp hpx (by rw [hpv]; exact hos)
  set V : Dict Str Val := vals.map fun kl => (kl.1, kl.2.toVal) with hV
  have hVk : V.keys = vals.keys := by simp [hV, Dict.keys, Function.comp_def]
  have hVg : ∀ q ∈ ps, Dict.get? V q.v.name =
      some (laidOf (shapeOf (named ps)).length (axisIn ps q.v.name) q.x).toVal := by
    intro q hq
    have := Dict.get?_map (fun (_ : Str) (l : Laid) => l.toVal) vals q.v.name
    rw [hV, this, E.get q hq]; rfl
  have hgv : Dict.get? V v.name = some (.arr [xs.length] xs) := by
    obtain ⟨b, hb, hb', _⟩ := part_array E.nodup hp hpx
    rw [hsh] at hb
    obtain rfl : b = 0 := by simp at hb; exact hb
    rw [← hpv, hVg p hp, hpx, hsh, hb']
    rfl
  have hdj : ∀ k, (Dict.get? (Dict.set dims v.name none) k).join = none := by
    intro k
    rw [Dict.get?_set]
    split
    · rfl
    · rename_i hne
      rw [E.axes]
      by_cases hk : k ∈ ps.map fun p => p.v.name
      · obtain ⟨q, hq, rfl⟩ := List.mem_map.mp hk
        obtain ⟨y, hy⟩ := hos q hq (by first | exact hne | exact Ne.symm hne)
        have := part_axis E.nodup hq
        rw [hy] at this
        rw [axisIn, this]; rfl
      · rw [← E.axes, Dict.get?_eq_none.mpr fun h => hk (E.dimKeys k h)]; rfl
  have hVs : ∀ k, Dict.get? (Dict.set V v.name (.setint xs.length)) k =
      if k = v.name then some (.setint xs.length) else Dict.get? V k := by
    intro k
    rw [Dict.get?_set]
    simp only [eq_comm]
  have hkv : v.name ∈ V.keys := Dict.mem_keys_of_get? hgv
  have hside : ∀ (K : List Part), (K.map fun p => p.v.name).Nodup → (∀ q ∈ K, q ∈ ps) →
      Spec.Side (askedOf fmt K) := by
    intro K hK hsub
    refine ⟨by rw [keys_askedOf]; exact hK, ?_⟩
    intro kt hkt
    obtain ⟨q, hq, rfl⟩ := List.mem_map.mp hkt
    exact entry_distName (E.asked q (hsub q hq)).good q.q
  have hnLR : ((L ++ R).map fun p => p.v.name).Nodup := (E.perm.map _).nodup_iff.mpr E.nodup
  rw [List.map_append, List.nodup_append] at hnLR
  obtain ⟨d, d1, d2, d3, d4, d5, d6, d7, d8, d9⟩ := singles_ok (fmt := fmt) (vs := D.vars)
    (L := D.leafs) (R := D.roots) (V := Dict.set V v.name (.setint xs.length))
    (dims := Dict.set dims v.name none)
    (m := askedOf fmt L) (c := askedOf fmt R)
    (by rintro h0; rw [h0] at hvv; simp at hvv) hD.good hD.nodup hD.all
    (by rw [Dict.keys_set_of_mem hkv, hVk, ← hpsn]; exact E.keys)
    (by
      intro k w hw
      rw [hVs] at hw
      split at hw
      · rename_i hk
        obtain rfl := (Option.some.inj hw).symm
        exact ⟨rfl, by rw [hk]; exact ht⟩
      · rename_i hk
        have hkm := Dict.mem_keys_of_get? hw
        rw [hVk, E.keys.mem_iff] at hkm
        obtain ⟨q, hq, rfl⟩ := List.mem_map.mp hkm
        obtain ⟨y, hy⟩ := hos q hq hk
        rw [hVg q hq, hy] at hw
        obtain rfl := (Option.some.inj hw).symm
        exact ⟨rfl, (E.asked q hq).good.entryValue y⟩)
    (Dict.nodup_set E.dimNodup)
    (by
      intro k hk
      rw [Dict.keys_set_of_mem hkv]
      rw [Dict.keys_set] at hk
      have : k = v.name ∨ k ∈ dims.keys := by
        split at hk
        · exact .inr hk
        · simpa [or_comm] using hk
      rcases this with rfl | h
      · exact hkv
      · rw [hVk, E.keys.mem_iff]; exact E.dimKeys k h)
    hdj
    (hside L hnLR.1 fun q hq => E.perm.mem_iff.mp (List.mem_append_left _ hq))
    (hside R hnLR.2.1 fun q hq => E.perm.mem_iff.mp (List.mem_append_right _ hq))
    (by rw [keys_askedOf, hnames, E.leafs]) (by rw [keys_askedOf, hnames, E.roots])
    a a2 hD.stable
  refine ⟨d, ?_, d2, d3, d4, d5, d7, ?_, ?_, fun k => (Dict.get? vals k).map Laid.vals, ?_, ?_, ?_⟩
  · simp only [SDep.call, E.parse, E.eval, a1, bind, Except.bind, SDep.evalIid, SDep.iidIter]
    have hnd : ¬ (fieldNdims dims = 0 ∨ fieldNdims dims = a.shape.length) := by
      rw [E.ndims, hsh, a2]; simp
    simp only [List.cons_ne_nil, if_false, if_neg hnd]
    rw [← hV]
    simp only [iidCounts, hgv, Val.len, bind, Except.bind]
    rw [E.name]
    exact d1
  · rw [d8, hVs, if_pos rfl]; rfl
  · intro w hw hne y hy
    rw [← E.vars] at hw
    obtain ⟨q, hq, rfl⟩ := List.mem_map.mp hw
    rw [d8, hVs, if_neg hne, hVg q hq, answers_unique (hans q hq) hy]; rfl
  · rw [PD.at, d5, d6, a3]
  · intro w hw
    rw [← E.vars] at hw
    obtain ⟨q, hq, rfl⟩ := List.mem_map.mp hw
    refine ⟨q.x, hans q hq, ?_⟩
    simp only [E.get q hq, Option.map_some, laidOf_vals]
  · intro k hk
    rw [← hpsn] at hk
    simp only [Dict.get?_eq_none.mpr fun h => hk (E.keys.mem_iff.mp h), Option.map_none]

/-! ### Roots left to their whole sets -/

/-- C73: a call with `joint=True` that leaves a root to its whole set raises: the condition
on the root is then written differently from the marginal variable of the prior. -/
theorem C73_joint_whole_refused {D : SDep} {values : Dict Str Req} {f : (Str → Option ℚ) → ℝ}
    {ds : List PD}
    (hD : Spec.Dep fmt D) (hA : Spec.Asks D values) (hf : Spec.Pointwise D.prob f)
    (hds : Spec.Priors fmt D values ds) (hlin : ∀ d ∈ ds, d.pscale.iscomplex = false)
    {v : Drawn} (hv : v ∈ D.roots) (hq : Spec.request values v.name = .all) :
    Raises (D.callJoint fmt values (.bool false)) := by
  have hr : D.roots ≠ [] := by rintro h0; rw [h0] at hv; simp at hv
  have hnLR : ((D.leafs ++ D.roots).map Drawn.name).Nodup := (hD.all.map _).nodup_iff.mpr hD.nodup
  rw [List.map_append, List.nodup_append] at hnLR
  obtain ⟨hnL, hnR, hdis⟩ := hnLR
  have hvv : ∀ w ∈ D.roots, w ∈ D.vars := fun w hw => hD.all.mem_iff.mp (List.mem_append_right _ hw)
  obtain ⟨ps, L, R, vals, dims, E⟩ := evald hD hA
  obtain ⟨a, d, h1, _, h2, h3, _, _, h6, _⟩ := sd_called hD E hf
  have hcd : D.call fmt values (.bool false) = .ok d := by
    simp only [SDep.call, E.parse, E.eval, h1, bind, Except.bind, SDep.evalIid, SDep.iidIter, if_true]
    exact h2
  have H := likes_called hD h3 (sd_pos E h6)
  obtain ⟨vs, v1, C, hget, _⟩ := joint_core hD H hr hds
  obtain ⟨prior, q1, q2, q3, _⟩ := C63_linear_partial C hlin
  obtain ⟨qs, p1, p2, p3⟩ := parts_of_calls C.good C.calls
  obtain ⟨hpc, hpm⟩ := prior_marg p3 (by rw [p2]; exact q3)
  have hqn : (qs.map fun p => p.v.name) = D.roots.map Drawn.name := by
    rw [← p1, List.map_map]; rfl
  have hpk : prior.marg.keys = D.roots.map Drawn.name := by rw [hpm, keys_sideOf, hqn]
  obtain ⟨x, hx, hxt⟩ := get?_texts hnR H.cond v hv
  have hxa : x = .array v.var.vset := by
    rw [Spec.Answers, hq] at hx
    exact (Except.ok.inj hx).symm
  have htext : Spec.text fmt values v x = v.name := by
    rw [hxa, Spec.text, hq]; rfl
  rw [htext] at hxt
  obtain ⟨q, hq', hqv⟩ := List.mem_map.mp (by rw [p1]; exact hv : v ∈ qs.map Part.v)
  have hqq : q.q = Spec.held x := by
    rw [← (p3 q hq').req, Spec.request, hqv, hget v hv x hx]; rfl
  have hqx : q.x = .array v.var.vset := by
    have he := (p3 q hq').eval
    rw [hqq, evaluate_held] at he
    rw [← Except.ok.inj he, hxa]
  have hwf : ∀ a ∈ [prior, d], a.WF fmt := by
    simp only [List.mem_cons, List.not_mem_nil, or_false]
    rintro a (rfl | rfl)
    exacts [q2, H.wf]
  have hval : ∀ c : PD, c.WF fmt → c.values v.name = some (VArg.array v.var.vset).toVal →
      c.axis v.name ≠ none := by
    intro c hc hcv
    obtain ⟨w, hw, hwx⟩ := Option.map_eq_some_iff.mp hcv
    have hns : w.issingleton = false := by
      clear hw
      rcases w with _ | _ | _ | _ | ⟨_ | ⟨n, s⟩, data⟩ | _ | _ <;>
        simp [Val.flat, VArg.toVal] at hwx <;> simp [Val.issingleton]
    obtain ⟨α, _, _, _, _, hax, _⟩ := hc.array _ _ hw hns
    rw [PD.axis, hax]; simp
  obtain ⟨e, he⟩ : Raises (product fmt [prior, d]) := by
    refine C19_texts_refused hwf ?_ ?_ (a := prior) (b := d) (by simp) (by simp) (k := v.name)
      (t := finalText fmt q.v.name (distName fmt q.v.name q.q) q.x) (t' := v.name) ?_
      (Dict.get?_mem hxt) ?_ ?_
    · simp only [List.flatMap_cons, List.flatMap_nil, List.append_nil]
      rw [hpk, H.marg, List.nodup_append]
      exact ⟨hnR, hnL, fun a ha b hb h => hdis b hb a ha h.symm⟩
    · simp only [List.mem_cons, List.not_mem_nil, or_false]
      rintro a (rfl | rfl)
      exacts [q3.own, H.own]
    · rw [hpm, ← hqv]
      exact List.mem_map_of_mem (f := fun p : Part => _) hq'
    · intro h0
      rw [hqx, hqq, hxa, hqv] at h0
      simp only [finalText, Spec.held, distName] at h0
      have := congrArg List.length h0
      simp at this
    · simp only [List.mem_cons, List.not_mem_nil, or_false]
      rintro c (rfl | rfl) hk
      · refine hval _ q2 ?_
        have hqd : q.d ∈ ds := by rw [← p2]; exact List.mem_map_of_mem hq'
        have hqk := (p3 q hq').keylist
        rw [← hqv, q3.values q.d hqd q.v.name (by rw [hqk]; simp), (p3 q hq').values, hqx, hqv]
      · obtain ⟨y, hy, hyv⟩ := H.values v hv
        rw [answers_unique hy hx, hxa] at hyv
        exact hval _ H.wf hyv
  exact ⟨e, by simp only [SDep.callJoint, hcd, v1, bind, Except.bind, if_neg hr, q1, he]⟩

/-- C73 for `joint=True` as intended. -/
def C73_joint_claim : Prop :=
  ∀ (fmt : Val → Str) (D : SDep) (values : Dict Str Req) (f : (Str → Option ℚ) → ℝ) (ds : List PD),
    Spec.Dep fmt D → Spec.Asks D values → Spec.Pointwise D.prob f → D.roots ≠ [] →
    Spec.Priors fmt D values ds → (∀ d ∈ ds, d.pscale.iscomplex = false) → D.pscale.iscomplex = false →
    ∃ d prior r, Spec.Called fmt D values f d ∧ Spec.Product ds prior ∧
      D.callJoint fmt values (.bool false) = .ok r ∧ Spec.Product [prior, d] r

/-- C73: if the function takes the product itself, the keyword given as a string is read
character by character: it is refused unless its first character names a variable. -/
theorem C73_user_string_refused {D : SDep} {values : Dict Str Req} {g : (Str → Option (VArg ℚ)) → ℝ}
    (hD : Spec.Dep fmt D) (hA : Spec.Asks D values) (hF : Spec.Summing D.prob g)
    {v : Drawn} (hv : v ∈ D.vars) {xs : List ℚ} (hx : Spec.Answers values v (.array xs))
    {ch : Char} {k : Str} (hk : [ch] ∉ D.vars.map Drawn.name) :
    Raises (D.call fmt values (.key (ch :: k))) := by
  obtain ⟨ps, L, R, vals, dims, E⟩ := evald hD hA
  obtain ⟨a, a1, a2, _⟩ := hF vals dims
  have hpsn : (ps.map fun p => p.v.name) = D.vars.map Drawn.name := by
    rw [← E.vars, List.map_map]; rfl
  obtain ⟨p, hp, rfl⟩ := List.mem_map.mp (by rw [E.vars]; exact hv : v ∈ ps.map Part.v)
  have hpx : p.x = .array xs := answers_unique (by
    rw [Spec.Answers, (E.asked p hp).req]; exact (E.asked p hp).eval) hx
  obtain ⟨b, hb, _⟩ := part_array E.nodup hp hpx
  have hnd : ¬ (fieldNdims dims = 0 ∨ fieldNdims dims = a.shape.length) := by
    rw [E.ndims, a2, List.length_nil]; omega
  refine ⟨.key, ?_⟩
  simp only [SDep.call, E.parse, E.eval, a1, bind, Except.bind, SDep.evalIid, SDep.iidIter,
    List.map_cons, List.cons_ne_nil, if_false, if_neg hnd, iidCounts]
  have h0 : Dict.get? (vals.map fun kl => (kl.1, kl.2.toVal)) [ch] = none := by
    rw [Dict.get?_eq_none]
    have : Dict.keys (vals.map fun kl => (kl.1, kl.2.toVal)) = vals.keys := by
      simp [Dict.keys, Function.comp_def]
    rw [this, E.keys.mem_iff, hpsn]
    exact hk
  rw [h0]

/-! ### Examples -/

theorem bcast_unique {shapes : List (List ℕ)} {S T : List ℕ} (hS : Spec.Broadcasts shapes S)
    (hT : Spec.Broadcasts shapes T) : S = T := by
  have hlen : ∀ {S T : List ℕ}, Spec.Broadcasts shapes S → Spec.Broadcasts shapes T → 0 < S.length →
      S.length = T.length := by
    intro S T hS hT h0
    obtain ⟨s, hs, he⟩ := hS.covers 0 h0
    have hne : s ≠ [] := by
      rintro rfl
      rw [List.getElem?_eq_getElem h0] at he
      simp at he
    have h1 := ((hS.fits s hs).resolve_left hne).1
    have h2 := ((hT.fits s hs).resolve_left hne).1
    omega
  have hl : S.length = T.length := by
    by_cases h0 : 0 < S.length
    · exact hlen hS hT h0
    · by_cases h1 : 0 < T.length
      · exact (hlen hT hS h1).symm
      · omega
  apply List.ext_getElem?
  intro a
  by_cases ha : a < S.length
  · obtain ⟨s, hs, he⟩ := hS.covers a ha
    have hne : ∀ s : List ℕ, s[a]? = S[a]? → s ≠ [] := by
      rintro s h rfl
      rw [List.getElem?_eq_getElem ha] at h
      simp at h
    have hne' : ∀ s : List ℕ, s[a]? = T[a]? → s ≠ [] := by
      rintro s h rfl
      rw [List.getElem?_eq_getElem (l := T) (by omega)] at h
      simp at h
    rcases ((hT.fits s hs).resolve_left (hne s he)).2 a with h | h
    · obtain ⟨t, ht, he'⟩ := hT.covers a (by omega)
      rcases ((hS.fits t ht).resolve_left (hne' t he')).2 a with h' | h'
      · rw [← he, ← he', h, h']
      · rw [← he', h']
    · rw [← he, h]
  · rw [List.getElem?_eq_none (by omega), List.getElem?_eq_none (by omega)]

open Classical in
/-- A function applied entry by entry. -/
noncomputable def entrywise (f : (Str → Option ℚ) → ℝ) (vals : Dict Str Laid)
    (_ : Dict Str (Option ℕ)) : Py Arr :=
  if h : ∃ S, Spec.Broadcasts (vals.map fun kl => kl.2.shape) S then
    .ok ⟨h.choose, fun j => f fun k => (Dict.get? vals k).bind fun l => l.at j⟩
  else .error .value

theorem entrywise_pointwise (f : (Str → Option ℚ) → ℝ) : Spec.Pointwise (entrywise f) f := by
  intro vals dims S hS
  have h : ∃ S, Spec.Broadcasts (vals.map fun kl => kl.2.shape) S := ⟨S, hS⟩
  refine ⟨_, by rw [entrywise, dif_pos h], bcast_unique h.choose_spec hS, fun j _ => rfl⟩

/-- Half if both dice agree, a quarter otherwise. -/
noncomputable def agreeing (g : Str → Option ℚ) : ℝ := if g ['x'] = g ['y'] then 1 / 2 else 1 / 4

/-- One die given another. -/
noncomputable def twoDice (s : PScale) : SDep :=
  ⟨[⟨die, 0, []⟩], [⟨dieY, 0, []⟩], [⟨die, 0, []⟩, ⟨dieY, 0, []⟩], entrywise agreeing, s⟩

theorem twoDice_dep {s : PScale} (hs : evalPscale s.spec = .ok s) :
    Spec.Dep (fun _ => ['v']) (twoDice s) where
  some := by simp [twoDice]
  all := List.Perm.refl _
  good := by
    intro v hv
    simp only [twoDice, List.mem_cons, List.not_mem_nil, or_false] at hv
    rcases hv with rfl | rfl
    · exact die_named _ rfl
    · exact dieY_named _ rfl
  nodup := by show ([['x'], ['y']] : List Str).Nodup; decide
  stable := hs

theorem lin_stable {c : ℝ} (hc : c ≠ 0) : evalPscale (PScale.lin c).spec = .ok (.lin c) := by
  simp only [PScale.spec, evalPscale, hc, if_false]
  split
  · rename_i h; rw [h]
  · rfl

theorem log_stable : evalPscale complexZero.spec = .ok complexZero := by
  simp [complexZero, PScale.spec, evalPscale]

theorem twoDice_asks (s : PScale) {values : Dict Str Req} (hk : values.keys.Nodup)
    (hm : ∀ k ∈ values.keys, k ∈ ([['x'], ['y']] : List Str)) {x y : VArg ℚ}
    (hx : die.evaluate (Spec.request values ['x']) 0 [] = .ok x) (hx' : ∀ n ∈ x.sizes, 0 < n)
    (hy : dieY.evaluate (Spec.request values ['y']) 0 [] = .ok y) (hy' : ∀ n ∈ y.sizes, 0 < n) :
    Spec.Asks (twoDice s) values where
  keys := hk
  known := hm
  answers := by
    intro v hv
    simp only [twoDice, List.mem_cons, List.not_mem_nil, or_false] at hv
    rcases hv with rfl | rfl
    · exact ⟨x, hx, hx'⟩
    · exact ⟨y, hy, hy'⟩

/-- Three observations of the first die and two values of the second. -/
def diceSeen : Dict Str Req := [(['x'], .array [1, 1, 2]), (['y'], .array [1, 2])]

theorem diceSeen_asks (s : PScale) : Spec.Asks (twoDice s) diceSeen :=
  twoDice_asks s (by simp [diceSeen, Dict.keys]) (by simp [diceSeen, Dict.keys])
    (x := .array [1, 1, 2]) rfl (by simp [VArg.sizes]) (y := .array [1, 2]) rfl (by simp [VArg.sizes])

theorem setint_entry {k : Str} (h : k = ['x'] ∨ k = ['y']) (n : ℤ) :
    Spec.Entry k (eqText (fun _ => ['v']) k (.setint n)) := by
  rcases h with rfl | rfl <;>
    exact ⟨by simp [eqText], by simp [eqText], by simp [eqText], by simp [eqText], by simp [eqText],
      .inl ⟨⟨['v'], rfl⟩, by simp, by simp⟩⟩

theorem diceSeen_observed (s : PScale) :
    Spec.Observed (fun _ => ['v']) (twoDice s) diceSeen [['x']] where
  some := by simp
  leafs := by intro k hk; simpa [twoDice, Drawn.name, die] using hk
  arrays := by
    intro v hv _ x hx
    simp only [twoDice, List.mem_cons, List.not_mem_nil, or_false] at hv
    subst hv
    exact ⟨_, (Except.ok.inj hx).symm⟩
  texts := by
    intro k hk n
    simp only [List.mem_cons, List.not_mem_nil, or_false] at hk
    exact setint_entry (.inl hk) n

/-- `C73_call` is not vacuous. -/
example : ∃ d, (twoDice (.lin 1)).call (fun _ => ['v']) diceSeen (.bool false) = .ok d ∧
    Spec.Called (fun _ => ['v']) (twoDice (.lin 1)) diceSeen agreeing d :=
  C73_call (twoDice_dep (lin_stable one_ne_zero)) (diceSeen_asks _) (entrywise_pointwise _)

/-- `C73_iid_partial`, `C73_iid_keys_partial` and `C73_iid_key_partial` are not vacuous,
on either scale. -/
example : ∃ d like, (twoDice (.lin 1)).call (fun _ => ['v']) diceSeen (.bool true) = .ok like ∧
    Spec.Counted d [['x']] like ∧ ∀ j ∈ idx like.shape, like.at j = Spec.prodAt d like j := by
  obtain ⟨d, like, _, _, h1, _, h2, _, h3⟩ := C73_iid_partial
    (twoDice_dep (lin_stable one_ne_zero)) (diceSeen_asks _) (entrywise_pointwise _)
    (diceSeen_observed (.lin 1)) (.inl rfl)
  exact ⟨d, like, h1, h2, h3⟩

example : ∃ d like, (twoDice complexZero).call (fun _ => ['v']) diceSeen (.keys [['x']]) = .ok like ∧
    Spec.Counted d [['x']] like ∧ ∀ j ∈ idx like.shape, like.at j = Spec.prodAt d like j := by
  obtain ⟨d, like, _, _, h1, _, h2, _, h3⟩ := C73_iid_keys_partial [['x']]
    (twoDice_dep log_stable) (diceSeen_asks _) (entrywise_pointwise _)
    (diceSeen_observed complexZero) (.inr rfl)
  exact ⟨d, like, h1, h2, h3⟩

example : ∃ d like, (twoDice (.lin 1)).call (fun _ => ['v']) diceSeen (.key ['x']) = .ok like ∧
    Spec.Counted d [['x']] like ∧ ∀ j ∈ idx like.shape, like.at j = Spec.prodAt d like j := by
  obtain ⟨d, like, _, _, h1, _, h2, _, h3⟩ := C73_iid_key_partial ['x']
    (twoDice_dep (lin_stable one_ne_zero)) (diceSeen_asks _) (entrywise_pointwise _)
    (diceSeen_observed (.lin 1)) (.inl rfl)
  exact ⟨d, like, h1, h2, h3⟩

/-- `C73_iid_factor` is not vacuous. -/
example : ∃ d like, (twoDice (.lin 2)).call (fun _ => ['v']) diceSeen (.keys [['x']]) = .ok like ∧
    Spec.Counted d [['x']] like ∧ ∀ j ∈ idx like.shape, like.at j = 2 * Spec.prodAt d like j := by
  obtain ⟨d, like, _, _, h1, _, h2, h3⟩ := C73_iid_factor [['x']]
    (twoDice_dep (lin_stable two_ne_zero)) (diceSeen_asks _) (entrywise_pointwise _)
    (diceSeen_observed (.lin 2)) rfl two_pos (by norm_num)
  exact ⟨d, like, h1, h2, h3⟩

/-- `C73_iid_root_refused` and `C73_iid_scalar_refused` are not vacuous. -/
example : Raises ((twoDice (.lin 1)).call (fun _ => ['v']) diceSeen (.keys [['y']])) :=
  (C73_iid_root_refused (twoDice_dep (lin_stable one_ne_zero)) (diceSeen_asks _)
    (entrywise_pointwise _) (k := ['y']) (by simp) (by simp [twoDice, Drawn.name, die])).1

example : Raises ((twoDice (.lin 1)).call (fun _ => ['v']) [(['x'], .scalar 1)] (.keys [['x']])) :=
  (C73_iid_scalar_refused (values := [(['x'], .scalar 1)]) (twoDice_dep (lin_stable one_ne_zero))
    (twoDice_asks _ (by simp [Dict.keys]) (by simp [Dict.keys]) (x := .scalar 1) rfl
      (by simp [VArg.sizes]) (y := .array [1, 2, 3]) rfl (by simp [VArg.sizes]))
    (entrywise_pointwise _) (v := ⟨die, 0, []⟩) (by simp [twoDice]) (by simp [Drawn.name, die])
    (x := 1) rfl).1

/-- `C73_no_roots_refused` is not vacuous. -/
example : Raises (SDep.callJoint (fun _ => ['v'])
    ⟨[⟨die, 0, []⟩], [], [⟨die, 0, []⟩], entrywise agreeing, .lin 1⟩ [] (.bool false)) :=
  C73_no_roots_refused _ _ _ rfl

/-- The second die called with the values it has been given. -/
theorem twoDice_priors (s : PScale) {values : Dict Str Req} {ys : List ℚ} (hne : ys ≠ [])
    (hy : dieY.evaluate (Spec.request values ['y']) 0 [] = .ok (.array ys)) :
    ∃ d, Spec.Priors (fun _ => ['v']) (twoDice s) values [d] ∧ d.pscale = .lin 1 ∧
      d.shape = [ys.length] ∧
      ∀ m (h : m < ys.length), ys[m] ∈ dieY.vset → d.prob.get [m] = 1 / 3 := by
  obtain ⟨ds, C, hds⟩ := calls_exist (fmt := fun _ => ['v'])
    (vs := [⟨dieY, 0, []⟩]) (values := [(['y'], .array ys)]) (by simp)
    (by
      intro v hv
      simp only [List.mem_cons, List.not_mem_nil, or_false] at hv
      subst hv
      exact dieY_named _ rfl)
    (by simp) (by simp [Dict.keys]) (by simp [Dict.keys, Drawn.name, dieY])
    (by
      intro v hv
      simp only [List.mem_cons, List.not_mem_nil, or_false] at hv
      subst hv
      exact ⟨1 / 3, .lin 1, .array ys, rfl, by simp [dieY, evalPscale], rfl,
        by simp [VArg.sizes, List.length_pos_iff.mpr hne]⟩)
  have hc := C.calls
  have hpos := C.pos
  rcases hds with _ | ⟨h1, hds⟩
  cases hds
  rename_i d
  obtain ⟨p, b, x, hp, hb, hx, hsh, _, e, _, hpr⟩ := h1
  rcases hc with _ | ⟨hc, _⟩
  have hb1 : b = .lin 1 := by simpa [dieY, evalPscale] using hb.symm
  have hx1 : VArg.array ys = x := Except.ok.inj hx
  have hp1 : (1 / 3 : ℝ) = p := by simpa [dieY] using hp
  subst hb1 hx1 hp1
  refine ⟨d, .cons ⟨.array ys, hy, hc, hpos d (by simp)⟩ .nil, e, hsh, ?_⟩
  intro m hm hin
  rw [hpr [m] ys[m] (by simp [VArg.entry, hm]), if_pos hin]

/-- `C73_joint_partial` and `C73_joint_iid_partial` are not vacuous. -/
example : ∃ d ds prior r, Spec.Called (fun _ => ['v']) (twoDice (.lin 1)) diceSeen agreeing d ∧
    Spec.Product ds prior ∧
    (twoDice (.lin 1)).callJoint (fun _ => ['v']) diceSeen (.bool false) = .ok r ∧
    Spec.Product [prior, d] r := by
  obtain ⟨q, hq, hs, _⟩ := twoDice_priors (.lin 1) (values := diceSeen) (ys := [1, 2]) (by simp) rfl
  obtain ⟨d, prior, r, h1, h2, h3, _, h4⟩ := C73_joint_partial
    (twoDice_dep (lin_stable one_ne_zero)) (diceSeen_asks _) (entrywise_pointwise _)
    (by simp [twoDice]) (by simp [twoDice, Drawn.name, dieY, diceSeen, Spec.request, Dict.get?]) hq
    (by simp [hs, PScale.iscomplex]) rfl
  exact ⟨d, _, prior, r, h1, h2, h3, h4⟩

example : ∃ ds d like prior r, Spec.Counted d [['x']] like ∧ Spec.Product ds prior ∧
    (twoDice (.lin 1)).callJoint (fun _ => ['v']) diceSeen (.keys [['x']]) = .ok r ∧
    Spec.Product [prior, like] r := by
  obtain ⟨q, hq, hs, _⟩ := twoDice_priors (.lin 1) (values := diceSeen) (ys := [1, 2]) (by simp) rfl
  obtain ⟨d, like, prior, r, _, h1, _, h2, h3, _, h4⟩ := C73_joint_iid_partial [['x']]
    (twoDice_dep (lin_stable one_ne_zero)) (diceSeen_asks _) (entrywise_pointwise _)
    (diceSeen_observed _)
    (by simp [twoDice]) (by simp [twoDice, Drawn.name, dieY, diceSeen, Spec.request, Dict.get?]) hq
    (by simp [hs, PScale.iscomplex]) rfl
  exact ⟨_, d, like, prior, r, h1, h2, h3, h4⟩

/-- C73 for `joint=True` fails: a call that leaves a root to its whole set raises. -/
theorem C73_joint_claim_fails : ¬ C73_joint_claim := by
  intro h
  have hA : Spec.Asks (twoDice (.lin 1)) [(['x'], .scalar 1)] :=
    twoDice_asks _ (by simp [Dict.keys]) (by simp [Dict.keys]) (x := .scalar 1) rfl
      (by simp [VArg.sizes]) (y := .array [1, 2, 3]) rfl (by simp [VArg.sizes])
  obtain ⟨q, hq, hs, _⟩ := twoDice_priors (.lin 1) (values := [(['x'], .scalar 1)]) (ys := [1, 2, 3])
    (by simp) rfl
  obtain ⟨d, prior, r, _, h2, h3, h4⟩ := h _ _ _ _ _ (twoDice_dep (lin_stable one_ne_zero)) hA
    (entrywise_pointwise _) (by simp [twoDice]) hq (by simp [hs, PScale.iscomplex]) rfl
  obtain ⟨e, he⟩ := C73_joint_whole_refused (twoDice_dep (lin_stable one_ne_zero)) hA
    (entrywise_pointwise _) hq (by simp [hs, PScale.iscomplex]) (v := ⟨dieY, 0, []⟩) (by simp [twoDice])
    rfl
  rw [he] at h3
  cases h3

/-- `C73_joint_iid_log_partial` is not vacuous. -/
example : ∃ ds d like prior r, Spec.Counted d [['x']] like ∧ Spec.Product ds prior ∧
    (twoDice complexZero).callJoint (fun _ => ['v']) diceSeen (.keys [['x']]) = .ok r ∧
    Spec.Product [prior, like] r := by
  obtain ⟨q, hq, hs, hsh, hpr⟩ := twoDice_priors complexZero (values := diceSeen) (ys := [1, 2]) (by simp) rfl
  obtain ⟨d, like, prior, r, _, h1, _, h2, h3, _, h4⟩ := C73_joint_iid_log_partial [['x']]
    (twoDice_dep log_stable) (diceSeen_asks _) (entrywise_pointwise _) (diceSeen_observed _)
    (by simp [twoDice]) (by simp [twoDice, Drawn.name, dieY, diceSeen, Spec.request, Dict.get?]) hq
    (by simp [hs])
    (by
      intro prior hP i hi
      obtain ⟨j, ⟨hj, hag⟩, _⟩ := hP.index i hi q (by simp)
      have he := hP.entry i hi [j] (.cons ⟨hj, hag⟩ .nil)
      rw [hsh, mem_idx] at hj
      obtain ⟨m, hm, rfl⟩ : ∃ m, m < 2 ∧ j = [m] := by
        rcases hj with _ | ⟨hm, hj⟩
        cases hj
        exact ⟨_, hm, rfl⟩
      have h3 := hpr m hm (by
        have : m = 0 ∨ m = 1 := by omega
        rcases this with rfl | rfl <;> simp [dieY])
      have hz : npz ≤ (1 / 3 : ℝ) := by unfold npz; norm_num
      have hq3 : q.at [m] = 1 / 3 := by rw [PD.at, hs, h3]; simp [Spec.value]
      rw [he]
      simpa [hq3] using hz)
    rfl
  exact ⟨_, d, like, prior, r, h1, h2, h3, h4⟩

/-- A function that returns one number: the product of quarters over the first die's values. -/
noncomputable def quarters (g : Str → Option (VArg ℚ)) : ℝ :=
  match g ['x'] with
  | some (.array xs) => (1 / 4) ^ xs.length
  | _ => 1 / 4

/-- One die given another, with a function that takes the product itself. -/
noncomputable def userDice : SDep :=
  { twoDice (.lin 1) with
    prob := fun vals _ => .ok ⟨[], fun _ => quarters fun k => (Dict.get? vals k).map Laid.vals⟩ }

theorem userDice_dep : Spec.Dep (fun _ => ['v']) userDice :=
  have h := twoDice_dep (s := .lin 1) (lin_stable one_ne_zero)
  ⟨h.some, h.all, h.good, h.nodup, h.stable⟩

theorem userDice_asks : Spec.Asks userDice [(['x'], .array [1, 1, 2]), (['y'], .scalar 2)] :=
  have h := twoDice_asks (.lin 1) (values := [(['x'], .array [1, 1, 2]), (['y'], .scalar 2)])
    (by simp [Dict.keys]) (by simp [Dict.keys]) (x := .array [1, 1, 2]) rfl (by simp [VArg.sizes])
    (y := .scalar 2) rfl (by simp [VArg.sizes])
  ⟨h.keys, h.known, h.answers⟩

/-- `C73_user_partial` and `C73_user_string_refused` are not vacuous. -/
example : ∃ d, userDice.call (fun _ => ['v']) [(['x'], .array [1, 1, 2]), (['y'], .scalar 2)]
      (.keys [['x']]) = .ok d ∧ d.values ['x'] = some (.setint 3) := by
  obtain ⟨d, h1, _, _, _, _, _, h2, _⟩ := C73_user_partial userDice_dep userDice_asks
    (g := quarters) (fun vals dims => ⟨_, rfl, rfl, rfl⟩) (v := ⟨die, 0, []⟩) (by simp [userDice, twoDice])
    (xs := [1, 1, 2]) rfl
    (by
      intro w hw hne
      simp only [userDice, twoDice, List.mem_cons, List.not_mem_nil, or_false] at hw
      rcases hw with rfl | rfl
      · exact absurd rfl hne
      · exact ⟨2, rfl⟩)
    (setint_entry (.inl rfl) _)
  exact ⟨d, h1, h2⟩

example : Raises (userDice.call (fun _ => ['v']) [(['x'], .array [1, 1, 2]), (['y'], .scalar 2)]
    (.key ['z', 'x'])) :=
  C73_user_string_refused userDice_dep userDice_asks (g := quarters)
    (fun vals dims => ⟨_, rfl, rfl, rfl⟩) (v := ⟨die, 0, []⟩) (by simp [userDice, twoDice])
    (xs := [1, 1, 2]) rfl (by simp [userDice, twoDice, Drawn.name, die, dieY])

/-- C73 as intended for functions that take the product themselves: the observations of all
leafs are replaced by their numbers. -/
def C73_user_claim : Prop :=
  ∀ (fmt : Val → Str) (D : SDep) (values : Dict Str Req) (g : (Str → Option (VArg ℚ)) → ℝ),
    Spec.Dep fmt D → Spec.Asks D values → Spec.Summing D.prob g →
    (∀ w ∈ D.roots, ∃ y, Spec.Answers values w (.scalar y)) →
    Spec.Observed fmt D values (D.leafs.map Drawn.name) →
    ∃ d, D.call fmt values (.bool true) = .ok d ∧ ∀ v ∈ D.leafs, ∀ xs, Spec.Answers values v (.array xs) →
      d.values v.name = some (.setint xs.length)

/-- Two dice without roots. -/
noncomputable def pairDice : SDep :=
  ⟨[⟨die, 0, []⟩, ⟨dieY, 0, []⟩], [], [⟨die, 0, []⟩, ⟨dieY, 0, []⟩],
    fun vals _ => .ok ⟨[], fun _ => quarters fun k => (Dict.get? vals k).map Laid.vals⟩, .lin 1⟩

/-- C73 fails for two leafs: three observations of the second are counted as one, the
length of the first axis of their array. -/
theorem C73_user_claim_fails : ¬ C73_user_claim := by
  intro h
  have h' := twoDice_dep (s := .lin 1) (lin_stable one_ne_zero)
  have hA := twoDice_asks (.lin 1) (values := [(['x'], .array [1, 2]), (['y'], .array [1, 2, 3])])
    (by simp [Dict.keys]) (by simp [Dict.keys]) (x := .array [1, 2]) rfl (by simp [VArg.sizes])
    (y := .array [1, 2, 3]) rfl (by simp [VArg.sizes])
  obtain ⟨d, h1, h2⟩ := h (fun _ => ['v']) pairDice _ quarters
    ⟨by simp [pairDice], List.Perm.refl _, h'.good, h'.nodup, h'.stable⟩
    ⟨hA.keys, hA.known, hA.answers⟩ (fun vals dims => ⟨_, rfl, rfl, rfl⟩) (by simp [pairDice])
    ⟨by simp [pairDice], fun k hk => hk, by
      intro v hv _ x hx
      simp only [pairDice, List.mem_cons, List.not_mem_nil, or_false] at hv
      rcases hv with rfl | rfl
      · exact ⟨_, (Except.ok.inj hx).symm⟩
      · exact ⟨_, (Except.ok.inj hx).symm⟩, by
      intro k hk n
      simp only [pairDice, List.map_cons, List.map_nil, List.mem_cons, List.not_mem_nil, or_false] at hk
      exact setint_entry hk n⟩
  have h3 := h2 ⟨dieY, 0, []⟩ (by simp [pairDice]) [1, 2, 3] rfl
  have e1 : rfParse pairDice.vars [(['x'], .array [1, 2]), (['y'], .array [1, 2, 3])] =
      .ok [(['x'], .array [1, 2]), (['y'], .array [1, 2, 3])] := rfl
  have e2 : rfEvaluate pairDice.vars [(['x'], .array [1, 2]), (['y'], .array [1, 2, 3])] =
      .ok ([(['x'], ⟨.array [1, 2], [2, 1]⟩), (['y'], ⟨.array [1, 2, 3], [1, 3]⟩)],
        [(['x'], some 0), (['y'], some 1)]) := rfl
  rw [SDep.call, e1] at h1
  simp only [bind, Except.bind, e2] at h1
  have h4 : pdInit (fun _ => ['v']) (pairDice.distName (fun _ => ['v'])
      [(['x'], .array [1, 2]), (['y'], .array [1, 2, 3])])
      [(['x'], .setint 2), (['y'], .setint 1)] (some [(['x'], none), (['y'], none)])
      ⟨[], fun _ => quarters fun k => (Dict.get? [(['x'], (⟨.array [1, 2], [2, 1]⟩ : Laid)),
        (['y'], ⟨.array [1, 2, 3], [1, 3]⟩)] k).map Laid.vals⟩ (PScale.lin 1).spec = .ok d := h1
  obtain ⟨i1, _⟩ := pdInit_inv h4
  have hdv : d.dist.vals = [(['x'], .setint 2), (['y'], .setint 1)] := by
    have := (Except.ok.inj i1 : _ = d.dist)
    rw [← this]
    rfl
  rw [PD.values, show d.vals = d.dist.vals from rfl, hdv] at h3
  have h5 : (some (Val.setint 1) : Option Val) = some (.setint 3) := h3
  simp at h5
