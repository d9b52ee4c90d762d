/-
Property C72 (stepping a random field).
-/
import Verif.Model.RFStep
import Verif.Props.RF
import Verif.Props.RFCall

namespace Probayes

variable {fmt : Val → Str} {F : RField} {arrays : Dict Str Val → Py Arr} {w : SuccDraw}

/-! ### Specification -/

/-- The field's variables have different names, none of them empty, reserved, with
separators or ending in a prime, and values are printed without separators. -/
structure Spec.GoodField (fmt : Val → Str) (F : RField) : Prop where
  ne : F.vars ≠ []
  nodup : F.names.Nodup
  good : ∀ v ∈ F.vars, Spec.GoodName fmt v.var
  plain : ∀ v ∈ F.vars, v.name.getLast? ≠ some '\''

/-- The predecessors asked for come to the numbers `x`: every variable's request
(all its values if it is not mentioned) evaluates to the number. -/
def Spec.From (F : RField) (pred : Dict Str Req) (x : Str → ℚ) : Prop :=
  ∀ v ∈ F.vars, v.var.evaluate (Spec.request pred v.name) v.r v.perm = .ok (.scalar (x v.name))

/-- A dictionary has the number `x k` for every variable. -/
def Spec.Has (F : RField) (d : Dict Str Val) (x : Str → ℚ) : Prop :=
  ∀ v ∈ F.vars, Dict.get? d v.name = some (.scalar (x v.name))

/-- A dictionary has the number `y k` for the successor of every variable, either
under the variable's name with a prime or, if there is no such key, under the name. -/
def Spec.HasSucc (F : RField) (d : Dict Str Val) (y : Str → ℚ) : Prop :=
  ∀ v ∈ F.vars, Dict.get? d (v.name ++ ['\'']) = some (.scalar (y v.name)) ∨
    (Dict.get? d (v.name ++ ['\'']) = none ∧ Dict.get? d v.name = some (.scalar (y v.name)))

/-- A user's function takes the numbers `x` to the numbers `y`. -/
def Spec.Takes (F : RField) (f : Dict Str Val → Py (Dict Str Val)) (x y : Str → ℚ) : Prop :=
  ∀ d, Spec.Has F d x → ∃ e, f d = .ok e ∧ Spec.HasSucc F e y

/-- The successors asked for come to the numbers `y` when the predecessors are `x`. -/
inductive Spec.Reaches (F : RField) (x y : Str → ℚ) : Option FSucc → Prop
  /-- they are given -/
  | given (d : Dict Str Val) : Spec.HasSucc F d y → Spec.Reaches F x y (some (.given d))
  /-- a draw is asked for and the field has a function for it -/
  | drawn (n : ℤ) (f : Dict Str Val → Py (Dict Str Val)) : F.tfun = .fn f → Spec.Takes F f x y →
      Spec.Reaches F x y (some (.unitInt n))
  /-- nothing is asked for and the field has a delta -/
  | moved (f : Dict Str Val → Py (Dict Str Val)) : F.delta = some f → Spec.Takes F f x y →
      Spec.Reaches F x y none
  /-- nothing is asked for and the field has a function for draws and no delta -/
  | default (f : Dict Str Val → Py (Dict Str Val)) : F.delta = none → F.tfun = .fn f →
      Spec.Takes F f x y → Spec.Reaches F x y none

/-- The values of a step: the predecessors under their names, then the successors
under their names with a prime. -/
def Spec.stepped (F : RField) (x y : Str → ℚ) : Dict Str Val :=
  (F.vars.map fun v => (v.name, Val.scalar (x v.name))) ++
    F.vars.map fun v => (v.name ++ ['\''], Val.scalar (y v.name))

/-- The transition probability of a field as far as it has been set: the function
for the direction at these values, or else certainty (on the scale's terms). -/
inductive Spec.Set (F : RField) (s : PScale) (x y : Str → ℚ) (reverse : Bool) : ℝ → Prop
  | fn (f : Dict Str Val → Py Arr) (a : Arr) : F.tran = .fn f → f (Spec.stepped F x y) = .ok a →
      a.shape = [] → Spec.Set F s x y reverse (a.get [])
  | forward (f g : Dict Str Val → Py Arr) (a : Arr) : F.tran = .pair f g → reverse = false →
      f (Spec.stepped F x y) = .ok a → a.shape = [] → Spec.Set F s x y reverse (a.get [])
  | backward (f g : Dict Str Val → Py Arr) (a : Arr) : F.tran = .pair f g → reverse = true →
      g (Spec.stepped F x y) = .ok a → a.shape = [] → Spec.Set F s x y reverse (a.get [])
  | const : F.tran = .const → Spec.Set F s x y reverse (if s.iscomplex then 0 else 1)
  | sampler : F.tran = .none → F.tfun ≠ .none → Spec.Set F s x y reverse (if s.iscomplex then 0 else 1)

/-- The distribution of a step between numbers. -/
structure Spec.Steps (fmt : Val → Str) (F : RField) (x y : Str → ℚ) (s : PScale) (p : ℝ) (d : PD) : Prop where
  wf : d.WF fmt
  marg : d.marg = F.vars.map fun v =>
    (v.name ++ ['\''], v.name ++ '\'' :: '=' :: fmt (.scalar (y v.name)))
  cond : d.cond = F.vars.map fun v => (v.name, v.name ++ '=' :: fmt (.scalar (x v.name)))
  pred : ∀ v ∈ F.vars, d.values v.name = some (.scalar (x v.name))
  succ : ∀ v ∈ F.vars, d.values (v.name ++ ['\'']) = some (.scalar (y v.name))
  keys : d.keylist = F.names ++ F.names.map (· ++ ['\''])
  shape : d.shape = []
  scale : d.pscale = s
  prob : d.prob.get [] = p

/-! ### Evaluation of the predecessors -/

theorem rfParseAll_request {vs : List Drawn} {pred : Dict Str Req} {v : Drawn} (hv : v ∈ vs) :
    Dict.get? (rfParseAll vs pred) v.name = some (Spec.request pred v.name) := by
  have hf : ∀ l : Dict Str Req, ∀ k ∈ vs.map Drawn.name,
      Dict.get? (l.filter fun kv => decide (kv.1 ∈ vs.map Drawn.name)) k = Dict.get? l k := by
    intro l k hk
    induction l with
    | nil => rfl
    | cons kv l ih =>
      by_cases hkv : kv.1 ∈ vs.map Drawn.name
      · rw [List.filter_cons_of_pos (by simpa using hkv)]
        obtain ⟨k', q⟩ := kv
        simp only [Dict.get?, ih]
      · rw [List.filter_cons_of_neg (by simpa using hkv), ih]
        obtain ⟨k', q⟩ := kv
        have : k' ≠ k := by rintro rfl; exact hkv hk
        simp [Dict.get?, this]
  have hm : v.name ∈ vs.map Drawn.name := List.mem_map.mpr ⟨v, hv, rfl⟩
  unfold rfParseAll
  simp only []
  rw [hf _ _ hm, Spec.request]
  have happ : ∀ (l m : Dict Str Req) k, Dict.get? (l ++ m) k = (Dict.get? l k).or (Dict.get? m k) := by
    intro l m k
    induction l with
    | nil => simp [Dict.get?]
    | cons kv l ih =>
      obtain ⟨k', q⟩ := kv
      by_cases h : k' = k
      · simp [Dict.get?, h]
      · simp [Dict.get?, h, ih]
  rw [happ]
  rcases hg : Dict.get? pred v.name with _ | q
  · have : Dict.get? (((vs.map Drawn.name).filter fun k => decide (k ∉ Dict.keys pred)).map
        fun k => (k, Req.all)) v.name = some .all := by
      rw [get?_const, if_pos]
      exact List.mem_filter.mpr ⟨hm, by simpa using Dict.get?_eq_none.mp hg⟩
    rw [this]; rfl
  · rfl

theorem rfParseAll_keys (vs : List Drawn) (pred : Dict Str Req) :
    ∀ k ∈ (rfParseAll vs pred).keys, k ∈ vs.map Drawn.name := by
  intro k hk
  obtain ⟨kv, hkv, rfl⟩ := List.mem_map.mp hk
  simpa using (List.mem_filter.mp hkv).2

theorem rfParse_known {vs : List Drawn} {pred : Dict Str Req} :
    ∃ full, rfParse vs (rfParseAll vs pred) = .ok full ∧
      (∀ v ∈ vs, Dict.get? full v.name = some (Spec.request pred v.name)) ∧
      ∀ k ∈ full.keys, k ∈ vs.map Drawn.name := by
  have hall : (rfParseAll vs pred).keys.all (fun k => decide (k ∈ vs.map Drawn.name)) = true := by
    simp only [List.all_eq_true, decide_eq_true_eq]; exact rfParseAll_keys vs pred
  refine ⟨_, by unfold rfParse; simp only []; rw [if_pos hall], ?_, ?_⟩
  · intro v hv
    rw [Dict.get?_append, rfParseAll_request hv]; rfl
  · intro k hk
    rw [Dict.keys_append] at hk
    rcases List.mem_append.mp hk with hk | hk
    · exact rfParseAll_keys vs pred k hk
    · simp only [Dict.keys, List.map_map, List.mem_map, List.mem_filter] at hk
      obtain ⟨k', ⟨⟨v, hv, rfl⟩, _⟩, rfl⟩ := hk
      exact List.mem_map.mpr ⟨v, hv, rfl⟩

theorem rfAxes_known {values : Dict Str Req} : ∀ (ks : List Str) (n : ℕ),
    (∀ k ∈ ks, ∃ q, Dict.get? values k = some q) → ∃ dims, rfAxes values ks n = .ok dims
  | [], _, _ => ⟨[], rfl⟩
  | k :: ks, n, h => by
      obtain ⟨q, hq⟩ := h k (by simp)
      obtain ⟨d1, h1⟩ := rfAxes_known ks n fun k hk => h k (by simp [hk])
      obtain ⟨d2, h2⟩ := rfAxes_known ks (n + 1) fun k hk => h k (by simp [hk])
      by_cases hd : q.dimless = true
      · exact ⟨(k, none) :: d1, by simp [rfAxes, hq, hd, h1, bind, Except.bind, pure, Except.pure]⟩
      · exact ⟨(k, some n) :: d2, by simp [rfAxes, hq, hd, h2, bind, Except.bind, pure, Except.pure]⟩

theorem mapM_known {α β : Type} {f : α → Py β} {g : α → β} : ∀ (l : List α),
    (∀ a ∈ l, f a = .ok (g a)) → l.mapM f = .ok (l.map g)
  | [], _ => rfl
  | a :: l, h => by
      rw [List.mapM_cons, h a (by simp), mapM_known l fun a ha => h a (by simp [ha])]; rfl

theorem get?_stepNumber {α : Type} {vs : List Drawn} (hn : (vs.map Drawn.name).Nodup) (g : Drawn → α)
    {v : Drawn} (hv : v ∈ vs) : Dict.get? (vs.map fun v => (v.name, g v)) v.name = some (g v) :=
  Dict.get?_of_mem (by simpa [Dict.keys, Function.comp_def] using hn) (List.mem_map.mpr ⟨v, hv, rfl⟩)

theorem rfEvaluate_numbers {vs : List Drawn} {values : Dict Str Req} {x : Str → ℚ}
    (hn : (vs.map Drawn.name).Nodup)
    (hx : ∀ v ∈ vs, ∃ q, Dict.get? values v.name = some q ∧
      v.var.evaluate q v.r v.perm = .ok (.scalar (x v.name))) :
    ∃ laid dims, rfEvaluate vs values = .ok (laid, dims) ∧
      (∀ v ∈ vs, Dict.get? laid v.name = some ⟨.scalar (x v.name), []⟩) ∧
      ∀ kl ∈ laid, ∃ z, kl.2 = ⟨.scalar z, []⟩ := by
  by_cases hall : ∀ kq ∈ values, ∃ z, kq.2 = Req.scalar z
  · obtain ⟨vals, h1, h2, h3⟩ := mapM_scalars _ hall
    refine ⟨vals, [], by simp only [rfEvaluate, h1], ?_, ?_⟩
    · intro v hv
      obtain ⟨q, hq, he⟩ := hx v hv
      obtain ⟨z, hz⟩ := hall _ (Dict.get?_mem hq)
      simp only at hz
      subst hz
      simp only [DRV.evaluate, Except.ok.injEq, VArg.scalar.injEq] at he
      rw [← he]
      exact h3 _ _ hq
    · clear h2 h3 hx hall
      induction values generalizing vals with
      | nil =>
        simp only [List.mapM_nil] at h1
        obtain rfl := Option.some.inj h1
        simp
      | cons kq values ih =>
        rw [List.mapM_cons] at h1
        rcases hq : kq.2.scalar? with _ | z
        · simp [hq] at h1
        · rcases hm : (values.mapM fun kq => kq.2.scalar?.map fun x => (kq.1, (⟨.scalar x, []⟩ : Laid)))
            with _ | vals'
          · simp [hq, hm] at h1
          · simp [hq, hm] at h1
            subst h1
            intro kl hkl
            rcases List.mem_cons.mp hkl with rfl | hkl
            · exact ⟨z, rfl⟩
            · exact ih vals' hm kl hkl
  · push Not at hall
    obtain ⟨kq, hm, hq⟩ := hall
    obtain ⟨dims, hd⟩ := rfAxes_known (values := values) (vs.map Drawn.name) 0 (by
      intro k hk
      obtain ⟨v, hv, rfl⟩ := List.mem_map.mp hk
      obtain ⟨q, h1, _⟩ := hx v hv
      exact ⟨q, h1⟩)
    have hl := mapM_known (f := rfLay values dims)
      (g := fun v => (v.name, (⟨.scalar (x v.name), []⟩ : Laid))) vs (by
      intro v hv
      obtain ⟨q, h1, h2⟩ := hx v hv
      simp only [rfLay, h1, h2, bind, Except.bind, pure, Except.pure])
    refine ⟨_, _, by simp only [rfEvaluate, mapM_not_scalars values kq hm hq, hd, hl, bind, Except.bind, pure, Except.pure]; rfl, ?_, ?_⟩
    · intro v hv
      exact get?_stepNumber hn (fun v => (⟨.scalar (x v.name), []⟩ : Laid)) hv
    · intro kl hkl
      obtain ⟨v, _, rfl⟩ := List.mem_map.mp hkl
      exact ⟨_, rfl⟩

/-! ### Joining predecessors and successors -/

theorem prime_notMem (G : Spec.GoodField fmt F) {v : Drawn} : v.name ++ ['\''] ∉ F.names := by
  intro h
  obtain ⟨v', hv', he⟩ := List.mem_map.mp h
  apply G.plain v' hv'
  rw [he]; simp

theorem stepped_keys (F : RField) (x y : Str → ℚ) :
    (Spec.stepped F x y).map Prod.fst = F.names ++ F.names.map (· ++ ['\'']) := by
  simp [Spec.stepped, Function.comp_def]

theorem stepped_nodup (G : Spec.GoodField fmt F) (x y : Str → ℚ) :
    ((Spec.stepped F x y).map Prod.fst).Nodup := by
  rw [stepped_keys, List.nodup_append]
  refine ⟨G.nodup, G.nodup.map fun a b h => by simpa using h, ?_⟩
  intro k hk k' hk' he
  subst he
  obtain ⟨k0, hk0, rfl⟩ := List.mem_map.mp hk'
  obtain ⟨v, hv, rfl⟩ := List.mem_map.mp hk0
  exact prime_notMem G hk

theorem rfJoin_numbers (G : Spec.GoodField fmt F) {pred succ : Dict Str Val} {x y : Str → ℚ}
    (hx : Spec.Has F pred x) (hy : Spec.HasSucc F succ y) :
    rfJoin F.names pred succ = .ok (Spec.stepped F x y) := by
  have h1 := mapM_known (f := rfPred pred) (g := fun k => (k, Val.scalar (x k))) F.names (by
    intro k hk
    obtain ⟨v, hv, rfl⟩ := List.mem_map.mp hk
    simp only [rfPred, hx v hv])
  have h2 := mapM_known (f := rfSucc succ) (g := fun k => (k ++ ['\''], Val.scalar (y k))) F.names (by
    intro k hk
    obtain ⟨v, hv, rfl⟩ := List.mem_map.mp hk
    rcases hy v hv with h | ⟨h, h'⟩
    · have : v.name ++ ['\''] ∈ succ.keys := Dict.mem_keys_of_get? h
      simp only [rfSucc, this, if_true, h]
    · have : v.name ++ ['\''] ∉ succ.keys := Dict.get?_eq_none.mp h
      simp only [rfSucc, this, if_false, h'])
  unfold rfJoin
  rw [h1, h2]
  simp only [bind, Except.bind, pure, Except.pure]
  congr 1
  have e : (F.names.map fun k => (k, Val.scalar (x k))) ++ F.names.map (fun k => (k ++ ['\''], Val.scalar (y k)))
      = Spec.stepped F x y := by
    simp [Spec.stepped, Function.comp_def]
  rw [e]
  exact Dict.ofUpdates_of_nodup (stepped_nodup G x y)

/-! ### The distribution -/

theorem primedPart_stepped (G : Spec.GoodField fmt F) (x y : Str → ℚ) :
    primedPart (Spec.stepped F x y) = F.vars.map fun v => (v.name, Val.scalar (y v.name)) := by
  have h1 : (F.vars.map fun v => (v.name, Val.scalar (x v.name))).filterMap (fun kv =>
      if kv.1.getLast? = some '\'' then some (kv.1.dropLast, kv.2) else none) = [] := by
    rw [List.filterMap_eq_nil_iff]
    intro kv hkv
    obtain ⟨v, hv, rfl⟩ := List.mem_map.mp hkv
    rw [if_neg (G.plain v hv)]
  have h2 : (F.vars.map fun v => (v.name ++ ['\''], Val.scalar (y v.name))).filterMap (fun kv =>
      if kv.1.getLast? = some '\'' then some (kv.1.dropLast, kv.2) else none) =
      F.vars.map fun v => (v.name, Val.scalar (y v.name)) := by
    rw [List.filterMap_map]
    have : ((fun kv : Str × Val => if kv.1.getLast? = some '\'' then some (kv.1.dropLast, kv.2) else none) ∘
        fun v : Drawn => (v.name ++ ['\''], Val.scalar (y v.name))) =
        some ∘ fun v => (v.name, Val.scalar (y v.name)) := by
      funext v; simp
    rw [this, ← List.filterMap_map, List.filterMap_some]
  unfold primedPart Spec.stepped
  rw [List.filterMap_append, h1, h2, List.nil_append]
  exact Dict.ofUpdates_of_nodup (by simpa [Function.comp_def] using G.nodup)

theorem step_build (G : Spec.GoodField fmt F) (x y : Str → ℚ) {asked : Dict Str Req} (a : Arr)
    (ha : a.shape = []) {s : PScale} (hs : evalPscale s.spec = .ok s) :
    ∃ d, pdInit fmt
        (rfDistName fmt F.vars ((primedPart (Spec.stepped F x y)).map fun kv => (kv.1, kv.2.asReq)) ['\''] ++
          '|' :: rfDistName fmt F.vars asked [])
        (Spec.stepped F x y) (some []) a s.spec = .ok d ∧ Spec.Steps fmt F x y s (a.get []) d := by
  set marg : Dict Str Str := F.vars.map fun v => (v.name ++ ['\''], eqText fmt (v.name ++ ['\'']) (.scalar (y v.name)))
    with hmarg
  set cond : Dict Str Str := F.vars.map fun v => (v.name, eqText fmt v.name (.scalar (x v.name))) with hcond
  have hmk : marg.keys = F.names.map (· ++ ['\'']) := by simp [hmarg, Dict.keys, Function.comp_def]
  have hck : cond.keys = F.names := by simp [hcond, Dict.keys, Function.comp_def]
  have hmn : marg.keys.Nodup := by rw [hmk]; exact G.nodup.map fun a b h => by simpa using h
  have hcn : cond.keys.Nodup := by rw [hck]; exact G.nodup
  have hkeys : (Spec.stepped F x y).keys = F.names ++ F.names.map (· ++ ['\'']) := stepped_keys F x y
  have hvn : (Spec.stepped F x y).keys.Nodup := stepped_nodup G x y
  have hentry : ∀ k v, Dict.get? (Spec.stepped F x y) k = some v → ∃ u ∈ F.vars,
      (k = u.name ∧ v = .scalar (x u.name)) ∨ (k = u.name ++ ['\''] ∧ v = .scalar (y u.name)) := by
    intro k v hkv
    rcases List.mem_append.mp (Dict.get?_mem hkv) with h | h
    · obtain ⟨u, hu, he⟩ := List.mem_map.mp h
      simp only [Prod.mk.injEq] at he
      exact ⟨u, hu, Or.inl ⟨he.1.symm, he.2.symm⟩⟩
    · obtain ⟨u, hu, he⟩ := List.mem_map.mp h
      simp only [Prod.mk.injEq] at he
      exact ⟨u, hu, Or.inr ⟨he.1.symm, he.2.symm⟩⟩
  have hms : Spec.Side marg := by
    refine ⟨hmn, ?_⟩
    intro kt hkt
    obtain ⟨v, hv, rfl⟩ := List.mem_map.mp hkt
    exact (G.good v hv).prime.entryValue _
  have hcs : Spec.Side cond := by
    refine ⟨hcn, ?_⟩
    intro kt hkt
    obtain ⟨v, hv, rfl⟩ := List.mem_map.mp hkt
    exact (G.good v hv).entryValue _
  have hB : BuildArgs fmt marg cond (Spec.stepped F x y) [] [] := by
    refine { ne := ?_, nodup := hvn, allowed := ?_, margSide := hms, condSide := hcs, disj := ?_,
             keys := ?_, dimNodup := by simp, dimKeys := by simp, single := ?_, array := ?_,
             cover := by simp }
    · have := G.ne
      intro h0
      have := congrArg List.length h0
      simp [Spec.stepped] at this
      exact G.ne this
    · intro k hk
      rw [hkeys] at hk
      rcases List.mem_append.mp hk with hk | hk
      · obtain ⟨v, hv, rfl⟩ := List.mem_map.mp hk
        exact (G.good v hv).allowed
      · obtain ⟨k', hk', rfl⟩ := List.mem_map.mp hk
        obtain ⟨v, hv, rfl⟩ := List.mem_map.mp hk'
        exact (G.good v hv).prime.allowed
    · intro k hk hk'
      rw [hmk] at hk; rw [hck] at hk'
      obtain ⟨k0, hk0, rfl⟩ := List.mem_map.mp hk
      obtain ⟨v, hv, rfl⟩ := List.mem_map.mp hk0
      exact prime_notMem G hk'
    · intro k
      rw [hkeys, hmk, hck, List.mem_append]; tauto
    · intro k v hkv _
      refine ⟨rfl, ?_⟩
      obtain ⟨u, hu, ⟨rfl, rfl⟩ | ⟨rfl, rfl⟩⟩ := hentry k v hkv
      · exact Or.inr (Dict.get?_of_mem hcn (List.mem_map.mpr ⟨u, hu, rfl⟩))
      · exact Or.inl (Dict.get?_of_mem hmn (List.mem_map.mpr ⟨u, hu, rfl⟩))
    · intro k v hkv hsing
      obtain ⟨u, hu, ⟨rfl, rfl⟩ | ⟨rfl, rfl⟩⟩ := hentry k v hkv <;> simp [Val.issingleton] at hsing
  obtain ⟨d, d1, d2, d3, d4, d5, d6, d7, d8, d9⟩ := pdInit_ok hB a ha s.spec s hs
  have hget : ∀ v ∈ F.vars, Dict.get? (Spec.stepped F x y) v.name = some (.scalar (x v.name)) ∧
      Dict.get? (Spec.stepped F x y) (v.name ++ ['\'']) = some (.scalar (y v.name)) := by
    intro v hv
    exact ⟨Dict.get?_of_mem hvn (List.mem_append_left _ (List.mem_map.mpr ⟨v, hv, rfl⟩)),
      Dict.get?_of_mem hvn (List.mem_append_right _ (List.mem_map.mpr ⟨v, hv, rfl⟩))⟩
  refine ⟨d, ?_, ⟨d2, ?_, d4, ?_, ?_, ?_, d7, d9, by rw [d8]⟩⟩
  · rw [← d1]
    set m : Dict Str Str := F.vars.map fun v => (v.name ++ ['\''], distName fmt (v.name ++ ['\'']) (.scalar (y v.name)))
    set c : Dict Str Str := F.vars.map fun v => (v.name, distName fmt v.name ((Dict.get? asked v.name).getD .all))
      with hc
    have hm' : m = marg := rfl
    have hcside : Spec.Side c := by
      refine ⟨by simpa [hc, Dict.keys, Function.comp_def] using G.nodup, ?_⟩
      intro kt hkt
      obtain ⟨v, hv, rfl⟩ := List.mem_map.mp hkt
      exact entry_distName (G.good v hv) _
    have hname : rfDistName fmt F.vars
        ((primedPart (Spec.stepped F x y)).map fun kv => (kv.1, kv.2.asReq)) ['\''] ++
          '|' :: rfDistName fmt F.vars asked [] = margcondStr m c := by
      have e1 : rfDistName fmt F.vars
          ((primedPart (Spec.stepped F x y)).map fun kv => (kv.1, kv.2.asReq)) ['\''] =
          [','].intercalate m.vals := by
        unfold rfDistName
        congr 1
        simp only [m, Dict.vals, List.map_map]
        apply List.map_congr_left
        intro v hv
        have : Dict.get? ((primedPart (Spec.stepped F x y)).map fun kv => (kv.1, kv.2.asReq)) v.name =
            some (.scalar (y v.name)) := by
          rw [primedPart_stepped G, List.map_map]
          exact get?_stepNumber G.nodup (fun v => Req.scalar (y v.name)) hv
        rw [this]; rfl
      have e2 : rfDistName fmt F.vars asked [] = [','].intercalate c.vals := by
        unfold rfDistName
        congr 1
        simp [c, Dict.vals, Function.comp_def]
      have hne : [','].intercalate c.vals ≠ [] := by
        rcases hF : F.vars with _ | ⟨v, vs⟩
        · exact absurd hF G.ne
        · have ht : distName fmt v.name ((Dict.get? asked v.name).getD .all) ≠ [] :=
            (entry_distName (G.good v (by simp [hF])) _).nonempty
          have e : c.vals = distName fmt v.name ((Dict.get? asked v.name).getD .all) ::
              vs.map fun v => distName fmt v.name ((Dict.get? asked v.name).getD .all) := by
            simp [c, Dict.vals, hF, Function.comp_def]
          rw [e]
          intro h0
          apply ht
          cases vs <;> simp_all [List.intercalate, List.intersperse]
      rw [e1, e2, margcondStr, if_neg hne]
    rw [hname]
    apply pdInit_named hB (by rw [hm']; exact hms) hcside (by rw [hm']) (by rw [hck]; simp [hc, Dict.keys, Function.comp_def])
    intro k v hkv hsing
    obtain ⟨u, hu, ⟨rfl, rfl⟩ | ⟨rfl, rfl⟩⟩ := hentry k v hkv <;> simp [Val.issingleton] at hsing
  · rw [d3, hmarg]
    apply List.map_congr_left
    intro v _
    simp [eqText]
  · intro v hv
    rw [hB.values d5, (hget v hv).1]; rfl
  · intro v hv
    rw [hB.values d5, (hget v hv).2]; rfl
  · show Dict.keys d.vals = _
    rw [d5, Dict.keys_map]
    exact hkeys

/-! ### C72 -/

/-- The predecessors evaluated, as the step sees them. -/
theorem preds_numbers (G : Spec.GoodField fmt F) {pred : Dict Str Req} {x : Str → ℚ} (hx : Spec.From F pred x) :
    ∃ full laid dims, rfParse F.vars (rfParseAll F.vars pred) = .ok full ∧
      rfEvaluate F.vars full = .ok (laid, dims) ∧
      Spec.Has F (laid.map fun kl => (kl.1, kl.2.toVal)) x ∧
      (laid.map fun kl => (kl.1, kl.2.toVal)).all (fun kv => kv.2.isscalar) = true := by
  obtain ⟨full, h1, h2, _⟩ := rfParse_known (vs := F.vars) (pred := pred)
  obtain ⟨laid, dims, h3, h4, h5⟩ := rfEvaluate_numbers (x := x) G.nodup fun v hv => ⟨_, h2 v hv, hx v hv⟩
  refine ⟨full, laid, dims, h1, h3, ?_, ?_⟩
  · intro v hv
    have := Dict.get?_map (fun (_ : Str) (l : Laid) => l.toVal) laid v.name
    rw [this, h4 v hv]; rfl
  · simp only [List.all_eq_true]
    intro kv hkv
    obtain ⟨kl, hkl, rfl⟩ := List.mem_map.mp hkv
    obtain ⟨z, hz⟩ := h5 kl hkl
    simp [hz, Laid.toVal, Val.isscalar]

/-- The values of a step. -/
theorem evalStep_numbers (G : Spec.GoodField fmt F) {pv : Dict Str Val} {x y : Str → ℚ} {succ : Option FSucc}
    (hx : Spec.Has F pv x) (hsc : pv.all (fun kv => kv.2.isscalar) = true) (hr : Spec.Reaches F x y succ)
    (reverse : Bool) :
    rfEvalStep F pv (rfDefaultSucc F pv succ) reverse w = .ok (Spec.stepped F x y, [], none) := by
  cases hr with
  | given d hd =>
    simp only [rfDefaultSucc, rfEvalStep, rfJoin_numbers G hx hd, bind, Except.bind, pure, Except.pure]
  | drawn n f hf ht =>
    obtain ⟨e, he, hy⟩ := ht pv hx
    simp only [rfDefaultSucc, rfEvalStep, hf, he, rfJoin_numbers G hx hy, bind, Except.bind, pure, Except.pure]
  | moved f hf ht =>
    obtain ⟨e, he, hy⟩ := ht pv hx
    simp only [rfDefaultSucc, rfEvalStep, hf, he, rfJoin_numbers G hx hy, bind, Except.bind, pure, Except.pure]
  | default f hd hf ht =>
    obtain ⟨e, he, hy⟩ := ht pv hx
    simp only [rfDefaultSucc, hd, hsc, if_true, rfEvalStep, hf, he, rfJoin_numbers G hx hy, bind,
      Except.bind, pure, Except.pure]

/-- A step between numbers whose transition probability is known. -/
theorem step_numbers (G : Spec.GoodField fmt F) {s0 s : PScale} (hs0 : rfScale F.vars = .ok s0)
    (hs : evalPscale s0.spec = .ok s)
    {pred : Dict Str Req} {x y : Str → ℚ} (hx : Spec.From F pred x) {succ : Option FSucc}
    (hr : Spec.Reaches F x y succ) (reverse : Bool) {a : Arr} (ha : a.shape = [])
    (ht : rfEvalTran F s arrays (Spec.stepped F x y) none reverse = .ok a) :
    ∃ d, rfStep fmt F arrays pred succ reverse w = .ok d ∧ Spec.Steps fmt F x y s (a.get []) d := by
  obtain ⟨full, laid, dims, h1, h2, h3, h4⟩ := preds_numbers G hx
  obtain ⟨d, d1, d2⟩ := step_build G x y (asked := rfParseAll F.vars pred) a ha (C03_idempotent _ _ hs)
  refine ⟨d, ?_, d2⟩
  simp only [rfStep, hs0, hs, h1, h2, evalStep_numbers G h3 h4 hr reverse, ht, bind, Except.bind]
  exact d1

/-- C72 with numbers: whenever the predecessors come to one number for every
variable, and so do the successors - given by name, drawn by the field's sampling
function, or got by the field's delta -, and the field has a transition (or a
sampling function without one), the step is the distribution of the successors,
under the names with a prime, given the predecessors.  It has exactly these values
and the transition probability of the direction: what the function says, or
certainty if there is nothing to call.  Missing: values that are arrays
(`C72_arrays_refused`), boolean variables and values of float type, names joined by
commas; the default transition is `C72_mean_partial`. -/
theorem C72_numbers_partial (G : Spec.GoodField fmt F) {s0 s : PScale} (hs0 : rfScale F.vars = .ok s0)
    (hs : evalPscale s0.spec = .ok s)
    {pred : Dict Str Req} {x y : Str → ℚ} (hx : Spec.From F pred x) {succ : Option FSucc}
    (hr : Spec.Reaches F x y succ) (reverse : Bool) {p : ℝ} (hp : Spec.Set F s x y reverse p) :
    ∃ d, rfStep fmt F arrays pred succ reverse w = .ok d ∧ Spec.Steps fmt F x y s p d := by
  cases hp with
  | fn f a hf he ha =>
    exact step_numbers G hs0 hs hx hr reverse ha (by simp only [rfEvalTran, hf, he])
  | forward f g a hf hrev he ha =>
    exact step_numbers G hs0 hs hx hr reverse ha
      (by simp only [rfEvalTran, hf, hrev, he, Bool.false_eq_true, if_false])
  | backward f g a hf hrev he ha =>
    exact step_numbers G hs0 hs hx hr reverse ha (by simp only [rfEvalTran, hf, hrev, he, if_true])
  | const hf =>
    exact step_numbers (a := condDefault s) G hs0 hs hx hr reverse rfl (by simp only [rfEvalTran, hf])
  | sampler hf hn =>
    refine step_numbers (a := condDefault s) G hs0 hs hx hr reverse rfl ?_
    rcases ht : F.tfun with _ | _ | f
    · exact absurd ht hn
    · simp only [rfEvalTran, hf, ht]
    · simp only [rfEvalTran, hf, ht]

/-! ### The default transition -/

theorem rfSide_pred (G : Spec.GoodField fmt F) (x y : Str → ℚ) :
    rfSide F.names false (Spec.stepped F x y) = F.vars.map fun v => (v.name, Val.scalar (x v.name)) := by
  unfold rfSide Spec.stepped
  rw [List.filterMap_append]
  have h1 : (F.vars.map fun v => (v.name, Val.scalar (x v.name))).filterMap (fun kv =>
      let prime := decide (kv.1.getLast? = some '\'')
      let key := if prime then kv.1.dropLast else kv.1
      if prime = false ∧ key ∈ F.names then some (key, kv.2) else none) =
      F.vars.map fun v => (v.name, Val.scalar (x v.name)) := by
    have key : ∀ l : List Drawn, (∀ v ∈ l, v ∈ F.vars) →
        (l.map fun v => (v.name, Val.scalar (x v.name))).filterMap (fun kv =>
          let prime := decide (kv.1.getLast? = some '\'')
          let key := if prime then kv.1.dropLast else kv.1
          if prime = false ∧ key ∈ F.names then some (key, kv.2) else none) =
        l.map fun v => (v.name, Val.scalar (x v.name)) := by
      intro l hl
      induction l with
      | nil => rfl
      | cons v l ih =>
        have hp := G.plain v (hl v (by simp))
        have hm : v.name ∈ F.names := List.mem_map.mpr ⟨v, hl v (by simp), rfl⟩
        rw [List.map_cons, List.filterMap_cons_some (b := (v.name, Val.scalar (x v.name))) (by simp [hp, hm]),
          ih fun v hv => hl v (by simp [hv])]
    exact key F.vars fun _ hv => hv
  have h2 : (F.vars.map fun v => (v.name ++ ['\''], Val.scalar (y v.name))).filterMap (fun kv =>
      let prime := decide (kv.1.getLast? = some '\'')
      let key := if prime then kv.1.dropLast else kv.1
      if prime = false ∧ key ∈ F.names then some (key, kv.2) else none) = [] := by
    rw [List.filterMap_eq_nil_iff]
    intro kv hkv
    obtain ⟨v, hv, rfl⟩ := List.mem_map.mp hkv
    simp
  rw [h1, h2, List.append_nil]
  exact Dict.ofUpdates_of_nodup (by simpa [Function.comp_def] using G.nodup)

theorem rfSide_succ (G : Spec.GoodField fmt F) (x y : Str → ℚ) :
    rfSide F.names true (Spec.stepped F x y) = F.vars.map fun v => (v.name, Val.scalar (y v.name)) := by
  unfold rfSide Spec.stepped
  rw [List.filterMap_append]
  have h1 : (F.vars.map fun v => (v.name, Val.scalar (x v.name))).filterMap (fun kv =>
      let prime := decide (kv.1.getLast? = some '\'')
      let key := if prime then kv.1.dropLast else kv.1
      if prime = true ∧ key ∈ F.names then some (key, kv.2) else none) = [] := by
    rw [List.filterMap_eq_nil_iff]
    intro kv hkv
    obtain ⟨v, hv, rfl⟩ := List.mem_map.mp hkv
    have hp := G.plain v hv
    simp [hp]
  have h2 : (F.vars.map fun v => (v.name ++ ['\''], Val.scalar (y v.name))).filterMap (fun kv =>
      let prime := decide (kv.1.getLast? = some '\'')
      let key := if prime then kv.1.dropLast else kv.1
      if prime = true ∧ key ∈ F.names then some (key, kv.2) else none) =
      F.vars.map fun v => (v.name, Val.scalar (y v.name)) := by
    have key : ∀ l : List Drawn, (∀ v ∈ l, v ∈ F.vars) →
        (l.map fun v => (v.name ++ ['\''], Val.scalar (y v.name))).filterMap (fun kv =>
          let prime := decide (kv.1.getLast? = some '\'')
          let key := if prime then kv.1.dropLast else kv.1
          if prime = true ∧ key ∈ F.names then some (key, kv.2) else none) =
        l.map fun v => (v.name, Val.scalar (y v.name)) := by
      intro l hl
      induction l with
      | nil => rfl
      | cons v l ih =>
        have hm : v.name ∈ F.names := List.mem_map.mpr ⟨v, hl v (by simp), rfl⟩
        rw [List.map_cons, List.filterMap_cons_some (b := (v.name, Val.scalar (y v.name)))
          (by simp only [List.getLast?_append, List.getLast?_singleton, Option.some_or, decide_true, if_true,
                List.dropLast_concat, hm, and_self]),
          ih fun v hv => hl v (by simp [hv])]
        rfl
    exact key F.vars fun _ hv => hv
  rw [h1, h2, List.nil_append]
  exact Dict.ofUpdates_of_nodup (by simpa [Function.comp_def] using G.nodup)

/-- Every variable's own probability of its number: `p` lists them. -/
def Spec.Own (F : RField) (x : Str → ℚ) (p : List ℝ) : Prop :=
  List.Forall₂ (fun (v : Drawn) z => ∃ a, v.var.evalProb (.scalar (x v.name)) = .ok a ∧ a.shape = [] ∧
    a.get [] = z) F.vars p

/-- The variables' scales. -/
def Spec.Scales (F : RField) (ss : List PScale) : Prop :=
  List.Forall₂ (fun (v : Drawn) s => evalPscale v.var.pscale = .ok s) F.vars ss

theorem own_mapM (G : Spec.GoodField fmt F) {x : Str → ℚ} {p : List ℝ} (h : Spec.Own F x p) :
    F.vars.mapM (rfVarNum (F.vars.map fun v => (v.name, Val.scalar (x v.name)))) = .ok p := by
  have key : ∀ (l : List Drawn) (p : List ℝ), (∀ v ∈ l, v ∈ F.vars) →
      List.Forall₂ (fun (v : Drawn) z => ∃ a, v.var.evalProb (.scalar (x v.name)) = .ok a ∧ a.shape = [] ∧
        a.get [] = z) l p →
      l.mapM (rfVarNum (F.vars.map fun v => (v.name, Val.scalar (x v.name)))) = .ok p := by
    intro l p hl hp
    induction hp with
    | nil => rfl
    | @cons v z l p hvz _ ih =>
      obtain ⟨a, h1, h2, h3⟩ := hvz
      have : rfVarNum (F.vars.map fun v => (v.name, Val.scalar (x v.name))) v = .ok z := by
        simp only [rfVarNum, get?_stepNumber G.nodup (fun v => Val.scalar (x v.name)) (hl v (by simp)), h1, bind,
          Except.bind, h2, if_true, h3, pure, Except.pure]
      rw [List.mapM_cons, this, ih fun v hv => hl v (by simp [hv])]
      rfl
  exact key F.vars p (fun _ h => h) h

theorem scales_mapM {ss : List PScale} (h : Spec.Scales F ss) : rfScales F.vars = .ok ss := by
  unfold rfScales
  have h' : List.Forall₂ (fun (v : Drawn) s => evalPscale v.var.pscale = .ok s) F.vars ss := h
  clear h
  generalize F.vars = l at h'
  induction h' with
  | nil => rfl
  | cons h1 _ ih => rw [List.mapM_cons, h1, ih]; rfl

theorem scales_stable {ss : List PScale} (h : Spec.Scales F ss) : Spec.Evaluates (ss.map PScale.spec) ss := by
  have h' : List.Forall₂ (fun (v : Drawn) s => evalPscale v.var.pscale = .ok s) F.vars ss := h
  clear h
  generalize F.vars = l at h'
  induction h' with
  | nil => exact List.Forall₂.nil
  | cons h1 _ ih => exact List.Forall₂.cons (C03_idempotent _ _ h1) ih

/-- C72 without a transition: the step between numbers has the default transition
probability, the geometric mean of the variables' own probabilities of predecessors
and successors.  Missing: as in `C72_numbers_partial`; scales other than linear ones
multiplying to one (`C57_claim_fails`). -/
theorem C72_mean_partial (G : Spec.GoodField fmt F) (ht : F.tran = .none) (hf : F.tfun = .none)
    (hown : ∀ v, F.vars = [v] → v.var.tran = .none) {ss : List PScale} (hss : Spec.Scales F ss)
    (hv : ∀ s ∈ ss, Spec.Valid s) (hlin : ∀ s ∈ ss, s.iscomplex = false)
    (hone : (ss.map Spec.factor).prod = 1)
    {pred : Dict Str Req} {x y : Str → ℚ} (hx : Spec.From F pred x) {succ : Option FSucc}
    (hr : Spec.Reaches F x y succ) (reverse : Bool) {ps qs : List ℝ} (hp : Spec.Own F x ps)
    (hq : Spec.Own F y qs) :
    ∃ d, rfStep fmt F arrays pred succ reverse w = .ok d ∧
      Spec.Steps fmt F x y (.lin 1) (Real.sqrt ((List.zipWith Spec.value ss ps).prod *
        (List.zipWith Spec.value ss qs).prod)) d := by
  have hl : ps.length = ss.length := by rw [← hp.length_eq, hss.length_eq]
  have hl' : qs.length = ss.length := by rw [← hq.length_eq, hss.length_eq]
  have hpne : ps ≠ [] := by
    rintro rfl
    exact G.ne (List.length_eq_zero_iff.mp (by rw [hp.length_eq]; rfl))
  have hE := scales_stable hss
  have hssne : ss.map PScale.spec ≠ [] := by
    intro h0
    have : ss = [] := by simpa using h0
    rw [this] at hl
    exact hpne (List.length_eq_zero_iff.mp hl)
  have hlin' : ∀ s ∈ ss.map PScale.spec, s.iscomplex = false := by
    intro s hs; obtain ⟨a, ha, rfl⟩ := List.mem_map.mp hs; rw [spec_iscomplex, hlin a ha]
  have hP := C04_linear_partial (ss.map PScale.spec) ss hssne hE hlin'
  rw [hone] at hP
  have hsc : rfScale F.vars = .ok (.lin 1) := by
    simp only [rfScale, scales_mapM hss, hP, bind, Except.bind, pure, Except.pure]
  have hs1 : evalPscale (PScale.lin 1).spec = .ok (.lin 1) := by simp [PScale.spec, evalPscale]
  obtain ⟨z, s, h1, h2⟩ := C57_geometric_mean_partial ps qs ss hpne hl hl' hE hv hlin hone
  have hN : rvProdRuleN ps [qs] (ss.map PScale.spec) (PScale.lin 1).spec = .ok (z, s.spec) := by
    rw [← h1]
    unfold rvProdRuleN
    rw [orProdPscale_self _ _ hP]
    have : orProdPscale .none (ss.map PScale.spec) = .ok (PScale.lin 1).spec := by
      simp [orProdPscale, PSpec.truthy, hP]
    rw [this]
  have hs : s.spec = .flt 1 := by
    have h := rvProdRuleN_lin ps qs ss hpne hl hl' hE hv hlin
    rw [h1, hone] at h
    exact (Prod.mk.inj (Except.ok.inj h)).2
  have hz : z = Real.sqrt ((List.zipWith Spec.value ss ps).prod * (List.zipWith Spec.value ss qs).prod) := by
    rw [← h2]
    rcases s with c | ⟨re, im⟩
    · simp only [PScale.spec, PSpec.flt.injEq] at hs
      subst hs; simp [Spec.value]
    · simp [PScale.spec] at hs
  have hall : (Spec.stepped F x y).all (fun kv => kv.2.isscalar) = true := by
    simp only [List.all_eq_true]
    intro kv hkv
    rcases List.mem_append.mp hkv with h | h <;>
      (obtain ⟨v, _, rfl⟩ := List.mem_map.mp h; rfl)
  have hmean : rfMean F.vars (.lin 1) (Spec.stepped F x y) = .ok (.num z) := by
    have e1 := own_mapM G hp
    have e2 := own_mapM G hq
    rw [← rfSide_pred G x y] at e1
    rw [← rfSide_succ G x y] at e2
    unfold rfMean
    simp only [e1, e2, scales_mapM hss, hN, bind, Except.bind, pure, Except.pure]
  have := step_numbers (arrays := arrays) (w := w) (a := .num z) G hsc hs1 hx hr reverse rfl (by
    simp only [rfEvalTran, ht, hf, hall, if_true, hmean]
    rcases hF : F.vars with _ | ⟨v, _ | ⟨v', vs⟩⟩
    · rfl
    · simp [hown v hF, RVTran.isNone]
    · rfl)
  rw [← hz]
  exact this

/-! ### Refusals -/

/-- A step that succeeds on a field of several variables (or on one whose variable
does not draw its own successors) has only numbers. -/
theorem step_inv {pred : Dict Str Req} {succ : Option FSucc} {reverse : Bool} {d : PD}
    (h : rfStep fmt F arrays pred succ reverse w = .ok d)
    (hmany : ∀ v, F.vars = [v] → v.var.tran.fixed = false) :
    ∃ full laid dims vals, rfParse F.vars (rfParseAll F.vars pred) = .ok full ∧
      rfEvaluate F.vars full = .ok (laid, dims) ∧
      (∃ s, rfJoin F.names (laid.map fun kl => (kl.1, kl.2.toVal)) s = .ok vals ∧
        ∀ e, succ = some (.given e) → s = e) ∧
      distDims vals (some []) = .ok d.dist := by
  simp only [rfStep, bind, Except.bind] at h
  rcases h0 : rfScale F.vars with e | s0
  · simp [h0] at h
  simp only [h0] at h
  rcases h1 : evalPscale s0.spec with e | s
  · simp [h1] at h
  simp only [h1] at h
  rcases h2 : rfParse F.vars (rfParseAll F.vars pred) with e | full
  · simp [h2] at h
  simp only [h2] at h
  rcases h3 : rfEvaluate F.vars full with e | ⟨laid, dims⟩
  · simp [h3] at h
  simp only [h3] at h
  rcases h4 : rfEvalStep F (laid.map fun kl => (kl.1, kl.2.toVal))
      (rfDefaultSucc F (laid.map fun kl => (kl.1, kl.2.toVal)) succ) reverse w with e | ⟨vals, dims', ij⟩
  · simp [h4] at h
  simp only [h4] at h
  rcases h5 : rfEvalTran F s arrays vals ij reverse with e | a
  · simp [h5] at h
  simp only [h5] at h
  have hd := (pdInit_inv h).1
  suffices hj : dims' = [] ∧ ∃ s, rfJoin F.names (laid.map fun kl => (kl.1, kl.2.toVal)) s = .ok vals ∧
      ∀ e, succ = some (.given e) → s = e by
    obtain ⟨rfl, hj⟩ := hj
    exact ⟨full, laid, dims, vals, rfl, h3, hj, hd⟩
  have hjoin : ∀ s, (∀ e, succ = some (.given e) → s = e) → (do
      let j ← rfJoin F.names (laid.map fun kl : Str × Laid => (kl.1, kl.2.toVal)) s
      return ((j, [], none) : Dict Str Val × Dict Str (Option ℕ) × Option (ℕ × ℕ))) = .ok (vals, dims', ij) →
      dims' = [] ∧ ∃ s, rfJoin F.names (laid.map fun kl => (kl.1, kl.2.toVal)) s = .ok vals ∧
        ∀ e, succ = some (.given e) → s = e := by
    intro s hse hs
    simp only [bind, Except.bind, pure, Except.pure] at hs
    rcases hj : rfJoin F.names (laid.map fun kl => (kl.1, kl.2.toVal)) s with e | j
    · simp [hj] at hs
    · simp only [hj, Except.ok.injEq, Prod.mk.injEq] at hs
      obtain ⟨rfl, rfl, _⟩ := hs
      exact ⟨rfl, s, hj, hse⟩
  have hgiven : ∀ e, succ = some (.given e) →
      rfDefaultSucc F (laid.map fun kl : Str × Laid => (kl.1, kl.2.toVal)) succ = some (.given e) := by
    rintro e rfl; rfl
  unfold rfEvalStep at h4
  split at h4
  · rename_i n hn
    have hno : ∀ e, succ ≠ some (.given e) := by
      intro e he
      rw [hgiven e he] at hn
      simp at hn
    split at h4
    · rename_i f hf
      simp only [bind, Except.bind] at h4
      rcases hf' : f (laid.map fun kl => (kl.1, kl.2.toVal)) with e | s
      · simp [hf'] at h4
      · simp only [hf'] at h4
        exact hjoin s (fun e he => absurd he (hno e)) h4
    · split at h4
      · rename_i v hv
        rw [hmany v hv] at h4
        simp at h4
      · simp at h4
  · rename_i s hs
    refine hjoin s ?_ h4
    intro e he
    rw [hgiven e he] at hs
    simpa using hs.symm
  · rename_i hn
    have hno : ∀ e, succ ≠ some (.given e) := by
      intro e he
      rw [hgiven e he] at hn
      simp at hn
    split at h4
    · simp at h4
    · rename_i f hf
      simp only [bind, Except.bind] at h4
      rcases hf' : f (laid.map fun kl => (kl.1, kl.2.toVal)) with e | s
      · simp [hf'] at h4
      · simp only [hf'] at h4
        exact hjoin s (fun e he => absurd he (hno e)) h4

/-- Without dimensions only numbers (or sets) can be stored. -/
theorem dims_nil_numbers {vals : Dict Str Val} {r : Dist} (hn : vals.keys.Nodup) (hne : vals ≠ [])
    (h : distDims vals (some []) = .ok r) {k : Str} {a : Val} (ha : (k, a) ∈ vals)
    (hs : a.issingleton = false) (hnone : a ≠ .setnone) : False := by
  obtain ⟨_, h2, _⟩ := distDims_inv hn hne h
  have hm : (k, a.fixNone) ∈ fixVals vals := List.mem_map.mpr ⟨(k, a), ha, rfl⟩
  have hf : a.fixNone = a := by cases a <;> first | rfl | exact absurd rfl hnone
  rcases h2 _ hm with ⟨h3, _⟩ | ⟨_, s, data, b, _, _, h4⟩
  · rw [hf, hs] at h3; simp at h3
  · simp [Dict.get?] at h4

theorem forall₂_left {α β : Type} {R : α → β → Prop} {l : List α} {m : List β} (h : List.Forall₂ R l m)
    {a : α} (ha : a ∈ l) : ∃ b ∈ m, R a b := by
  induction h with
  | nil => simp at ha
  | cons hab _ ih =>
    rcases List.mem_cons.mp ha with rfl | ha
    · exact ⟨_, by simp, hab⟩
    · obtain ⟨b, hb, hr⟩ := ih ha
      exact ⟨b, by simp [hb], hr⟩

theorem mapM_ok_inv {α β : Type} {f : α → Py β} : ∀ {l : List α} {r : List β}, l.mapM f = .ok r →
    List.Forall₂ (fun a b => f a = .ok b) l r
  | [], r, h => by
      simp only [List.mapM_nil, pure, Except.pure, Except.ok.injEq] at h
      subst h; exact List.Forall₂.nil
  | a :: l, r, h => by
      rw [List.mapM_cons] at h
      simp only [bind, Except.bind, pure, Except.pure] at h
      rcases h1 : f a with e | b
      · simp [h1] at h
      · simp only [h1] at h
        rcases h2 : l.mapM f with e | bs
        · simp [h2] at h
        · simp only [h2, Except.ok.injEq] at h
          subst h
          exact List.Forall₂.cons h1 (mapM_ok_inv h2)

theorem rfPred_inv {pred : Dict Str Val} {k : Str} {kv : Str × Val} (h : rfPred pred k = .ok kv) :
    kv.1 = k ∧ Dict.get? pred k = some kv.2 := by
  unfold rfPred at h
  split at h
  · simp at h
  · rename_i v hv
    obtain rfl := Except.ok.inj h
    exact ⟨rfl, hv⟩

theorem rfSucc_inv {succ : Dict Str Val} {k : Str} {kv : Str × Val} (h : rfSucc succ k = .ok kv) :
    kv.1 = k ++ ['\''] ∧
      Dict.get? succ (if k ++ ['\''] ∈ succ.keys then k ++ ['\''] else k) = some kv.2 := by
  unfold rfSucc at h
  split at h
  · simp at h
  · rename_i v hv
    obtain rfl := Except.ok.inj h
    exact ⟨rfl, hv⟩

/-- What a successful join holds. -/
theorem rfJoin_inv (G : Spec.GoodField fmt F) {pred succ vals : Dict Str Val}
    (h : rfJoin F.names pred succ = .ok vals) :
    vals.keys = F.names ++ F.names.map (· ++ ['\'']) ∧ vals.keys.Nodup ∧
      ∀ v ∈ F.vars, (∃ a, (v.name, a) ∈ vals ∧ Dict.get? pred v.name = some a) ∧
        ∃ a, (v.name ++ ['\''], a) ∈ vals ∧
          Dict.get? succ (if v.name ++ ['\''] ∈ succ.keys then v.name ++ ['\''] else v.name) = some a := by
  unfold rfJoin at h
  simp only [bind, Except.bind, pure, Except.pure] at h
  rcases h1 : F.names.mapM (rfPred pred) with e | ps
  · simp [h1] at h
  simp only [h1] at h
  rcases h2 : F.names.mapM (rfSucc succ) with e | ss
  · simp [h2] at h
  simp only [h2, Except.ok.injEq] at h
  have f1 := mapM_ok_inv h1
  have f2 := mapM_ok_inv h2
  have k1 : ps.map Prod.fst = F.names := by
    clear h h1 h2 f2
    generalize F.names = l at f1
    induction f1 with
    | nil => rfl
    | cons hab _ ih => rw [List.map_cons, ih, (rfPred_inv hab).1]
  have k2 : ss.map Prod.fst = F.names.map (· ++ ['\'']) := by
    clear h h1 h2 f1 k1
    generalize F.names = l at f2
    induction f2 with
    | nil => rfl
    | cons hab _ ih => rw [List.map_cons, List.map_cons, ih, (rfSucc_inv hab).1]
  have hkeys : (ps ++ ss).map Prod.fst = F.names ++ F.names.map (· ++ ['\'']) := by
    rw [List.map_append, k1, k2]
  have hn : ((ps ++ ss).map Prod.fst).Nodup := by
    rw [hkeys, ← stepped_keys F 0 0]; exact stepped_nodup G 0 0
  rw [Dict.ofUpdates_of_nodup hn] at h
  subst h
  refine ⟨hkeys, hn, ?_⟩
  intro v hv
  have hm : v.name ∈ F.names := List.mem_map.mpr ⟨v, hv, rfl⟩
  constructor
  · obtain ⟨kv, hkv, hr⟩ := forall₂_left f1 hm
    obtain ⟨e1, e2⟩ := rfPred_inv hr
    refine ⟨kv.2, List.mem_append_left _ ?_, e2⟩
    rw [← e1]; exact hkv
  · obtain ⟨kv, hkv, hr⟩ := forall₂_left f2 hm
    obtain ⟨e1, e2⟩ := rfSucc_inv hr
    refine ⟨kv.2, List.mem_append_right _ ?_, e2⟩
    rw [← e1]; exact hkv

theorem rfAxes_array {values : Dict Str Req} {k : Str} {q : Req} (hq : Dict.get? values k = some q)
    (hd : q.dimless = false) : ∀ {ks : List Str} {n : ℕ} {dims : Dict Str (Option ℕ)},
    rfAxes values ks n = .ok dims → k ∈ ks → ∃ a, Dict.get? dims k = some (some a)
  | [], _, _, _, hk => by simp at hk
  | k' :: ks, n, dims, h, hk => by
      unfold rfAxes at h
      rcases hq' : Dict.get? values k' with _ | q'
      · simp [hq'] at h
      · simp only [hq', bind, Except.bind, pure, Except.pure] at h
        by_cases hd' : q'.dimless = true
        · simp only [hd', if_true] at h
          rcases h1 : rfAxes values ks n with e | ds
          · simp [h1] at h
          · simp only [h1, Except.ok.injEq] at h
            subst h
            have hne : k' ≠ k := by
              rintro rfl
              rw [hq] at hq'
              obtain rfl := Option.some.inj hq'
              rw [hd] at hd'; simp at hd'
            rcases List.mem_cons.mp hk with rfl | hk
            · exact absurd rfl hne
            · simp only [Dict.get?, hne, if_false]
              exact rfAxes_array hq hd h1 hk
        · simp only [hd', Bool.false_eq_true, if_false] at h
          rcases h1 : rfAxes values ks (n + 1) with e | ds
          · simp [h1] at h
          · simp only [h1, Except.ok.injEq] at h
            subst h
            by_cases hne : k' = k
            · exact ⟨n, by simp [Dict.get?, hne]⟩
            · rcases List.mem_cons.mp hk with rfl | hk
              · exact absurd rfl hne
              · simp only [Dict.get?, hne, if_false]
                exact rfAxes_array hq hd h1 hk

/-- An array of predecessors stays an array with axes. -/
theorem evaluate_array (G : Spec.GoodField fmt F) {pred : Dict Str Req} {full : Dict Str Req}
    {laid : Dict Str Laid} {dims : Dict Str (Option ℕ)} {v : Drawn} (hv : v ∈ F.vars) {xs : List ℚ}
    (hx : v.var.evaluate (Spec.request pred v.name) v.r v.perm = .ok (.array xs))
    (h1 : rfParse F.vars (rfParseAll F.vars pred) = .ok full)
    (h2 : rfEvaluate F.vars full = .ok (laid, dims)) :
    ∃ l, Dict.get? laid v.name = some l ∧ l.toVal.issingleton = false := by
  obtain ⟨full', g1, g2, _⟩ := rfParse_known (vs := F.vars) (pred := pred)
  rw [h1] at g1
  obtain rfl := Except.ok.inj g1
  have hq := g2 v hv
  have hd := dimless_iff hx
  simp only [VArg.isscalar] at hd
  have hns : ∀ z, Spec.request pred v.name ≠ .scalar z := by
    intro z hz
    rw [hz] at hd; simp [Req.dimless] at hd
  have hnone := mapM_not_scalars full (v.name, Spec.request pred v.name) (Dict.get?_mem hq) hns
  simp only [rfEvaluate, hnone, bind, Except.bind, pure, Except.pure] at h2
  rcases h3 : rfAxes full (F.vars.map Drawn.name) 0 with e | ds
  · simp [h3] at h2
  simp only [h3] at h2
  rcases h4 : F.vars.mapM (rfLay full ds) with e | ls
  · simp [h4] at h2
  simp only [h4, Except.ok.injEq, Prod.mk.injEq] at h2
  obtain ⟨rfl, _⟩ := h2
  have f := mapM_ok_inv h4
  obtain ⟨kl, hkl, hr⟩ := forall₂_left f hv
  obtain ⟨a, ha⟩ := rfAxes_array hq hd h3 (List.mem_map.mpr ⟨v, hv, rfl⟩)
  simp only [rfLay, hq, hx, bind, Except.bind, pure, Except.pure, ha, Option.join_some, reShape] at hr
  by_cases hlt : a < fieldNdims ds
  · simp only [hlt, if_true, Except.ok.injEq] at hr
    subst hr
    refine ⟨_, Dict.get?_of_mem ?_ hkl, ?_⟩
    · rw [keys_mapM_rfLay h4]; exact G.nodup
    · simp only [Laid.toVal, Val.issingleton, List.isEmpty_eq_false_iff]
      intro h0
      have := congrArg List.length h0
      simp at this
      omega
  · simp [hlt] at hr

/-- C72: values that are arrays are refused.  On every field except one of a single
variable that draws its own successors, a step whose predecessors include an array
raises, whatever successors are asked for and whatever transition has been set. -/
theorem C72_arrays_refused (G : Spec.GoodField fmt F)
    (hmany : ∀ v, F.vars = [v] → v.var.tran.fixed = false) {pred : Dict Str Req} {v : Drawn}
    (hv : v ∈ F.vars) {xs : List ℚ}
    (hx : v.var.evaluate (Spec.request pred v.name) v.r v.perm = .ok (.array xs))
    (succ : Option FSucc) (reverse : Bool) :
    Raises (rfStep fmt F arrays pred succ reverse w) := by
  rcases h : rfStep fmt F arrays pred succ reverse w with e | d
  · exact ⟨e, rfl⟩
  · exfalso
    obtain ⟨full, laid, dims, vals, h1, h2, ⟨s, h3, _⟩, h4⟩ := step_inv h hmany
    obtain ⟨l, g1, g2⟩ := evaluate_array G hv hx h1 h2
    obtain ⟨k1, k2, k3⟩ := rfJoin_inv G h3
    obtain ⟨⟨a, ha, hg⟩, _⟩ := k3 v hv
    rw [Dict.get?_map (fun (_ : Str) (l : Laid) => l.toVal) laid v.name, g1] at hg
    obtain rfl := Option.some.inj hg
    have hne : vals ≠ [] := by rintro rfl; simp at ha
    exact dims_nil_numbers k2 hne h4 ha g2 (by rcases l with ⟨z | zs, sh⟩ <;> simp [Laid.toVal])

/-- C72: so are arrays given as successors. -/
theorem C72_array_succ_refused (G : Spec.GoodField fmt F)
    (hmany : ∀ v, F.vars = [v] → v.var.tran.fixed = false) (pred : Dict Str Req) {v : Drawn}
    (hv : v ∈ F.vars) {e : Dict Str Val} {n : ℕ} {sh : List ℕ} {xs : List ℚ}
    (he : Dict.get? e (v.name ++ ['\'']) = some (.arr (n :: sh) xs) ∨
      (Dict.get? e (v.name ++ ['\'']) = none ∧ Dict.get? e v.name = some (.arr (n :: sh) xs)))
    (reverse : Bool) : Raises (rfStep fmt F arrays pred (some (.given e)) reverse w) := by
  rcases h : rfStep fmt F arrays pred (some (.given e)) reverse w with err | d
  · exact ⟨err, rfl⟩
  · exfalso
    obtain ⟨full, laid, dims, vals, h1, h2, ⟨s, h3, hs⟩, h4⟩ := step_inv h hmany
    obtain rfl := hs e rfl
    obtain ⟨k1, k2, k3⟩ := rfJoin_inv G h3
    obtain ⟨_, a, ha, hg⟩ := k3 v hv
    have : a = .arr (n :: sh) xs := by
      rcases he with he | ⟨he, he'⟩
      · rw [if_pos (Dict.mem_keys_of_get? he), he] at hg
        exact (Option.some.inj hg).symm
      · rw [if_neg (Dict.get?_eq_none.mp he), he'] at hg
        exact (Option.some.inj hg).symm
    subst this
    have hne : vals ≠ [] := by rintro rfl; simp at ha
    exact dims_nil_numbers k2 hne h4 ha rfl (by simp)

/-- C72: successors given by name must include every variable. -/
theorem C72_missing_refused (G : Spec.GoodField fmt F)
    (hmany : ∀ v, F.vars = [v] → v.var.tran.fixed = false) (pred : Dict Str Req) {v : Drawn}
    (hv : v ∈ F.vars) {e : Dict Str Val} (h1 : v.name ∉ e.keys) (h2 : v.name ++ ['\''] ∉ e.keys)
    (reverse : Bool) : Raises (rfStep fmt F arrays pred (some (.given e)) reverse w) := by
  rcases h : rfStep fmt F arrays pred (some (.given e)) reverse w with err | d
  · exact ⟨err, rfl⟩
  · exfalso
    obtain ⟨full, laid, dims, vals, _, _, ⟨s, h3, hs⟩, _⟩ := step_inv h hmany
    obtain rfl := hs e rfl
    obtain ⟨_, _, k3⟩ := rfJoin_inv G h3
    obtain ⟨_, a, _, hg⟩ := k3 v hv
    rw [if_neg h2] at hg
    exact h1 (Dict.mem_keys_of_get? hg)

/-- C72: a draw of successors needs a sampling function.  Without one - and without
a delta if nothing is said about successors - stepping from numbers raises. -/
theorem C72_no_sampler_refused (G : Spec.GoodField fmt F)
    (hmany : ∀ v, F.vars = [v] → v.var.tran.fixed = false) (hf : ∀ f, F.tfun ≠ .fn f)
    {pred : Dict Str Req} {x : Str → ℚ} (hx : Spec.From F pred x) {succ : Option FSucc}
    (hsucc : (∃ n, succ = some (.unitInt n)) ∨ (succ = none ∧ F.delta = none)) (reverse : Bool) :
    Raises (rfStep fmt F arrays pred succ reverse w) := by
  obtain ⟨full, laid, dims, h1, h2, h3, h4⟩ := preds_numbers G hx
  have hstep : rfEvalStep F (laid.map fun kl => (kl.1, kl.2.toVal))
      (rfDefaultSucc F (laid.map fun kl => (kl.1, kl.2.toVal)) succ) reverse w = .error .value := by
    have hun : ∀ n, rfEvalStep F (laid.map fun kl => (kl.1, kl.2.toVal)) (some (.unitInt n)) reverse w =
        .error .value := by
      intro n
      have hvs : ∀ vs, F.vars = vs → rfEvalStep F (laid.map fun kl => (kl.1, kl.2.toVal))
          (some (.unitInt n)) reverse w = .error .value := by
        intro vs hvs
        rcases ht : F.tfun with _ | _ | f
        · rcases vs with _ | ⟨v, _ | ⟨v', vs⟩⟩
          · simp only [rfEvalStep, ht, hvs]
          · simp [rfEvalStep, ht, hvs, hmany v hvs]
          · simp only [rfEvalStep, ht, hvs]
        · rcases vs with _ | ⟨v, _ | ⟨v', vs⟩⟩
          · simp only [rfEvalStep, ht, hvs]
          · simp [rfEvalStep, ht, hvs, hmany v hvs]
          · simp only [rfEvalStep, ht, hvs]
        · exact absurd ht (hf f)
      exact hvs _ rfl
    rcases hsucc with ⟨n, rfl⟩ | ⟨rfl, hd⟩
    · exact hun n
    · simp only [rfDefaultSucc, hd, h4, if_true]
      exact hun 0
  simp only [rfStep, h1, h2, hstep, bind, Except.bind]
  rcases rfScale F.vars with e | s0
  · exact ⟨e, rfl⟩
  · simp only []
    rcases evalPscale s0.spec with e | s
    · exact ⟨e, rfl⟩
    · exact ⟨_, rfl⟩

/-- C72: values given for anything but the field's variables make no difference. -/
theorem C72_others_ignored (fmt : Val → Str) (F : RField) (arrays : Dict Str Val → Py Arr) (w : SuccDraw)
    (pred : Dict Str Req) (succ : Option FSucc) (reverse : Bool) :
    rfStep fmt F arrays pred succ reverse w =
      rfStep fmt F arrays (pred.filter fun kv => decide (kv.1 ∈ F.names)) succ reverse w := by
  have : rfParseAll F.vars (pred.filter fun kv => decide (kv.1 ∈ F.names)) = rfParseAll F.vars pred := by
    unfold rfParseAll
    simp only [List.filter_append, List.filter_filter, Bool.and_self]
    congr 2
    congr 1
    apply List.filter_congr
    intro k hk
    congr 1
    simp only [eq_iff_iff, not_iff_not, Dict.keys, List.mem_map, List.mem_filter, decide_eq_true_eq]
    constructor
    · rintro ⟨kv, ⟨h1, _⟩, h2⟩; exact ⟨kv, h1, h2⟩
    · rintro ⟨kv, h1, h2⟩; exact ⟨kv, ⟨h1, by rw [h2]; simpa [RField.names] using hk⟩, h2⟩
  simp only [rfStep, this]

theorem pdInit_scale_congr {fmt : Val → Str} {p q : PSpec} (h : evalPscale p = evalPscale q) (n : Str)
    (vals : Dict Str Val) (dims? : Option (Dict Str (Option ℕ))) (prob : Arr) :
    pdInit fmt n vals dims? prob p = pdInit fmt n vals dims? prob q := by
  unfold pdInit; rw [h]

/-- C72 for a field of one variable with a transition of its own (a number, a matrix
or a pair of matrices) and nothing set on the field: drawing a successor of a number
through the field is drawing it through the variable. -/
theorem C72_single (G : Spec.GoodField fmt F) {v : Drawn} (hF : F.vars = [v]) (ht : F.tran = .none)
    (hf : F.tfun = .none) (hd : F.delta = none) (hfix : v.var.tran.fixed = true) {s0 b : PScale}
    (hs0 : rfScale F.vars = .ok s0) (hs : evalPscale s0.spec = .ok b) (hb : evalPscale v.var.pscale = .ok b)
    {pred : Dict Str Req} {x : ℚ}
    (hx : v.var.evaluate (Spec.request pred v.name) v.r v.perm = .ok (.scalar x)) (n : Option ℤ)
    (hn : n = none → v.var.delta = none) (reverse : Bool) :
    rfStep fmt F arrays pred (n.map FSucc.unitInt) reverse w =
      v.var.step fmt (Spec.request pred v.name) (n.map SReq.unitInt) reverse v.r v.perm w.r w.perm w.u := by
  have hv : v ∈ F.vars := by simp [hF]
  have hfrom : Spec.From F pred fun _ => x := by
    intro u hu
    rw [hF] at hu
    obtain rfl := List.mem_singleton.mp hu
    exact hx
  obtain ⟨full, laid, dims, h1, h2, h3, h4⟩ := preds_numbers G hfrom
  have htr : v.var.tran ≠ .none := by intro h0; rw [h0] at hfix; simp [RVTran.fixed] at hfix
  have hdef : rfDefaultSucc F (laid.map fun kl => (kl.1, kl.2.toVal)) (n.map FSucc.unitInt) =
      some (.unitInt (n.getD 0)) := by
    cases n with
    | none => simp [rfDefaultSucc, hd, h4]
    | some n => rfl
  have hdef' : v.var.defaultSucc (.scalar x) (n.map SReq.unitInt) = .ok (.unitInt (n.getD 0)) := by
    cases n with
    | none => cases hT : v.var.tran <;> simp_all [DRV.defaultSucc]
    | some n => rfl
  have hreq : Spec.request pred v.name ≠ .all := by
    intro h0; rw [h0] at hx; simp [DRV.evaluate] at hx
  have hisNone : v.var.tran.isNone = false := by cases hT : v.var.tran <;> simp_all [RVTran.isNone]
  have hpl := G.plain v hv
  have hnp : v.name ≠ v.var.prime := fun h => prime_ne v.var h.symm
  have hpn := prime_ne v.var
  have hpp : v.var.prime.getLast? = some '\'' := by simp [DRV.prime]
  have hpd : v.var.prime.dropLast = v.name := by simp [DRV.prime]
  rw [hF] at hs0 h1 h2
  simp only [rfStep, DRV.step, hs0, hs, h1, h2, hdef, hdef', hx, bind, Except.bind, rfEvalStep, hf, hF, hfix,
    if_true, h3 v hv, Val.varg, pure, Except.pure]
  rcases hsv : v.var.succVals (.scalar x) (.unitInt (n.getD 0)) reverse w.r w.perm w.u with e | ⟨sv, ij⟩
  · rfl
  simp only [rfEvalTran, ht, hf, hF, hisNone, Bool.false_eq_true, if_false]
  have hown : rfOwnTran v (v.var.stepVals (.scalar x) sv).1 ij reverse =
      v.var.evalTran (.scalar x) sv ij reverse := by
    cases sv with
    | scalar y =>
      simp [rfOwnTran, DRV.stepVals, Dict.get?, hpn, Val.varg, bind, Except.bind]
    | array ys =>
      simp [rfOwnTran, DRV.stepVals, Dict.get?, hpn, Val.varg, bind, Except.bind]
  rw [hown]
  rcases v.var.evalTran (.scalar x) sv ij reverse with e | a
  · rfl
  simp only []
  have hname : rfDistName fmt [v] ((primedPart (v.var.stepVals (.scalar x) sv).1).map fun kv => (kv.1, kv.2.asReq))
      ['\''] = v.var.succName fmt (Spec.request pred v.name) (n.map SReq.unitInt) sv := by
    have hsn : v.var.succName fmt (Spec.request pred v.name) (n.map SReq.unitInt) sv =
        match sv with
        | .scalar y => eqText fmt v.var.prime (.scalar y)
        | .array _ => v.var.prime ++ "=[]".toList := by
      rcases hq : Spec.request pred v.name with _ | _ | _ | _
      · exact absurd hq hreq
      all_goals cases sv <;> rfl
    rw [hsn]
    cases sv with
    | scalar y =>
      simp [rfDistName, primedPart, DRV.stepVals, hpp, hpd, hpl, Dict.ofUpdates, Dict.set, Dict.get?, Val.asReq,
        distName, List.intercalate, DRV.prime]
    | array ys =>
      simp [rfDistName, primedPart, DRV.stepVals, hpp, hpd, hpl, Dict.ofUpdates, Dict.set, Dict.get?, Val.asReq,
        distName, List.intercalate, DRV.prime]
  have hname' : rfDistName fmt [v] (rfParseAll [v] pred) [] = distName fmt v.name (Spec.request pred v.name) := by
    have := rfParseAll_request (vs := [v]) (pred := pred) (v := v) (by simp)
    simp [rfDistName, this, List.intercalate]
  rw [hname, hname']
  exact pdInit_scale_congr ((C03_idempotent _ _ hs).trans hb.symm) _ _ _ _

/-! ### Cases -/

/-- Two dice with a function as transition and a delta adding one to the first. -/
noncomputable def dice : RField :=
  ⟨[⟨die, 0, []⟩, ⟨dieY, 0, []⟩], .pair (fun _ => .ok ⟨[], fun _ => 1 / 4⟩) (fun _ => .ok ⟨[], fun _ => 1 / 2⟩),
    .none, some fun d => match Dict.get? d ['x'], Dict.get? d ['y'] with
      | some (.scalar x), some (.scalar y) => .ok [(['x'], .scalar (x + 1)), (['y'], .scalar y)]
      | _, _ => .error .key⟩

theorem dice_good : Spec.GoodField (fun _ => ['v']) dice where
  ne := by simp [dice]
  nodup := by simp [dice, RField.names, Drawn.name, die, dieY]
  good := by
    intro v hv
    simp only [dice, List.mem_cons, List.not_mem_nil, or_false] at hv
    rcases hv with rfl | rfl
    · exact die_named _ rfl
    · exact dieY_named _ rfl
  plain := by
    intro v hv
    simp only [dice, List.mem_cons, List.not_mem_nil, or_false] at hv
    rcases hv with rfl | rfl <;> simp [Drawn.name, die, dieY]

theorem dice_scale : rfScale dice.vars = .ok (.lin 1) := by
  have h1 : rfScales dice.vars = .ok [.lin 1, .lin 1] := by
    simp [rfScales, dice, die, dieY, evalPscale, pure, Except.pure, bind, Except.bind]
  have h2 : prodPscale ([PScale.lin 1, .lin 1].map PScale.spec) none = .ok (some (.lin 1)) := by
    have := C04_linear_partial ([PScale.lin 1, .lin 1].map PScale.spec) [.lin 1, .lin 1] (by simp)
      (.cons (by simp [PScale.spec, evalPscale]) (.cons (by simp [PScale.spec, evalPscale]) .nil))
      (by simp [PScale.spec, PSpec.iscomplex])
    simpa [Spec.factor] using this
  simp only [rfScale, h1, h2, bind, Except.bind, pure, Except.pure]

theorem dice_from : Spec.From dice [(['y'], .scalar 3), (['x'], .scalar 1)]
    (fun k => if k = ['x'] then 1 else 3) := by
  intro v hv
  simp only [dice, List.mem_cons, List.not_mem_nil, or_false] at hv
  rcases hv with rfl | rfl
  · simp [Spec.request, Dict.get?, DRV.evaluate, Drawn.name, die]
  · simp [Spec.request, Dict.get?, DRV.evaluate, Drawn.name, dieY]

/-- A step back of the two dice from 1 and 3: the delta takes the first to 2 and the
second function gives the probability. -/
example : ∃ d, rfStep (fun _ => ['v']) dice arrays [(['y'], .scalar 3), (['x'], .scalar 1)] none true w = .ok d ∧
    Spec.Steps (fun _ => ['v']) dice (fun k => if k = ['x'] then 1 else 3)
      (fun k => if k = ['x'] then 2 else 3) (.lin 1) (1 / 2) d := by
  refine C72_numbers_partial dice_good dice_scale (by simp [PScale.spec, evalPscale]) dice_from
    (.moved _ rfl ?_) true (.backward _ _ ⟨[], fun _ => 1 / 2⟩ rfl rfl rfl rfl)
  intro d hd
  have h1 := hd ⟨die, 0, []⟩ (by simp [dice])
  have h2 := hd ⟨dieY, 0, []⟩ (by simp [dice])
  simp only [Drawn.name, die, dieY] at h1 h2
  refine ⟨_, by simp only [h1, h2]; rfl, ?_⟩
  intro v hv
  simp only [dice, List.mem_cons, List.not_mem_nil, or_false] at hv
  right
  rcases hv with rfl | rfl
  · simp [Drawn.name, die, Dict.get?]; norm_num
  · simp [Drawn.name, dieY, Dict.get?]

theorem dice_own (x : Str → ℚ) (hx : ∀ k, x k ∈ ([1, 2, 3] : List ℚ)) :
    Spec.Own { dice with tran := .none } x [1 / 3, 1 / 3] := by
  refine .cons ?_ (.cons ?_ .nil)
  · have := hx ['x']
    simp only [List.mem_cons, List.not_mem_nil, or_false] at this
    simp [Drawn.name, die, DRV.evalProb, rvEvalProb, evalPscale, uniformProb, insideD, this, bind, Except.bind, pure,
      Except.pure]
  · have := hx ['y']
    simp only [List.mem_cons, List.not_mem_nil, or_false] at this
    simp [Drawn.name, dieY, DRV.evalProb, rvEvalProb, evalPscale, uniformProb, insideD, this, bind, Except.bind, pure,
      Except.pure]

/-- Without a transition the probability of the step of the two dice is the geometric
mean of 1/9 and 1/9. -/
example : ∃ d, rfStep (fun _ => ['v']) { dice with tran := .none } arrays
      [(['y'], .scalar 3), (['x'], .scalar 1)]
      (some (.given [(['x'], .scalar 2), (['y', '\''], .scalar 2)])) false w = .ok d ∧
    d.prob.get [] = 1 / 9 := by
  have hG : Spec.GoodField (fun _ => ['v']) { dice with tran := .none } :=
    ⟨dice_good.ne, dice_good.nodup, dice_good.good, dice_good.plain⟩
  have hfrom : Spec.From { dice with tran := .none } [(['y'], .scalar 3), (['x'], .scalar 1)]
      (fun k => if k = ['x'] then 1 else 3) := dice_from
  obtain ⟨d, h1, h2⟩ := C72_mean_partial (arrays := arrays) (w := w) (y := fun _ => 2) hG rfl rfl
    (by intro v hv; simp [dice] at hv) (ss := [.lin 1, .lin 1])
    (.cons (by simp [die, evalPscale]) (.cons (by simp [dieY, evalPscale]) .nil))
    (by simp [Spec.Valid]) (by simp [PScale.iscomplex]) (by simp [Spec.factor]) hfrom
    (.given [(['x'], .scalar 2), (['y', '\''], .scalar 2)] (by
      intro v hv
      simp only [dice, List.mem_cons, List.not_mem_nil, or_false] at hv
      rcases hv with rfl | rfl
      · right; simp [Drawn.name, die, Dict.get?]
      · left; simp [Drawn.name, dieY, Dict.get?])) false
    (dice_own _ (by intro k; by_cases hk : k = ['x'] <;> simp [hk])) (dice_own _ (by intro k; simp))
  refine ⟨d, h1, ?_⟩
  rw [h2.prob]
  simp only [List.zipWith_cons_cons, List.zipWith_nil_right, Spec.value, List.prod_cons, List.prod_nil, mul_one]
  rw [Real.sqrt_mul_self (by norm_num)]
  norm_num

/-- C72 full claim: a step of any values the variables can take gives a distribution;
here for successors given as numbers and a transition that is not a function. -/
def C72_claim : Prop :=
  ∀ (fmt : Val → Str) (F : RField) (arrays : Dict Str Val → Py Arr) (w : SuccDraw) (pred : Dict Str Req)
    (e : Dict Str Val) (y : Str → ℚ) (s0 s : PScale) (reverse : Bool), Spec.GoodField fmt F →
    F.tran = .const → rfScale F.vars = .ok s0 → evalPscale s0.spec = .ok s →
    (∀ v ∈ F.vars, ∃ q, v.var.evaluate (Spec.request pred v.name) v.r v.perm = .ok q) →
    Spec.HasSucc F e y → ∃ d, rfStep fmt F arrays pred (some (.given e)) reverse w = .ok d

/-- C72 full claim fails: two dice cannot be stepped from all their values. -/
theorem C72_claim_fails : ¬ C72_claim := by
  intro h
  have hG : Spec.GoodField (fun _ => ['v']) { dice with tran := .const } :=
    ⟨dice_good.ne, dice_good.nodup, dice_good.good, dice_good.plain⟩
  obtain ⟨d, hd⟩ := h (fun _ => ['v']) { dice with tran := .const } (fun _ => .error .value) ⟨0, [], 0⟩ []
    [(['x'], .scalar 2), (['y'], .scalar 2)] (fun _ => 2) (.lin 1) (.lin 1) false hG rfl dice_scale
    (by simp [PScale.spec, evalPscale])
    (by
      intro v hv
      exact ⟨.array v.var.vset, by simp [Spec.request, Dict.get?, DRV.evaluate]⟩)
    (by
      intro v hv
      simp only [dice, List.mem_cons, List.not_mem_nil, or_false] at hv
      right
      rcases hv with rfl | rfl <;> simp [Drawn.name, die, dieY, Dict.get?])
  obtain ⟨e, he⟩ := C72_arrays_refused (arrays := fun _ => .error .value) (w := ⟨0, [], 0⟩) hG
    (by intro v hv; simp [dice] at hv) (pred := []) (v := ⟨die, 0, []⟩) (by simp [dice]) (xs := [1, 2, 3])
    (by simp [Spec.request, Dict.get?, DRV.evaluate, die])
    (some (.given [(['x'], .scalar 2), (['y'], .scalar 2)])) false
  rw [he] at hd
  cases hd

/-- The second die cannot be left out of the successors, … -/
example : Raises (rfStep (fun _ => ['v']) dice arrays [(['x'], .scalar 1)]
    (some (.given [(['x'], .scalar 2)])) false w) :=
  C72_missing_refused dice_good (by intro v hv; simp [dice] at hv) _ (v := ⟨dieY, 0, []⟩) (by simp [dice])
    (by simp [Drawn.name, dieY]) (by simp [Drawn.name, dieY]) _

/-- … be given an array, … -/
example : Raises (rfStep (fun _ => ['v']) dice arrays [(['x'], .scalar 1), (['y'], .scalar 1)]
    (some (.given [(['x'], .scalar 2), (['y'], .arr [2] [2, 3])])) false w) :=
  C72_array_succ_refused dice_good (by intro v hv; simp [dice] at hv) _ (v := ⟨dieY, 0, []⟩) (by simp [dice])
    (n := 2) (sh := []) (xs := [2, 3]) (Or.inr (by simp [Drawn.name, dieY, Dict.get?])) _

/-- … and no draw can be asked of the two. -/
example (n : ℤ) : Raises (rfStep (fun _ => ['v']) dice arrays [(['y'], .scalar 3), (['x'], .scalar 1)]
    (some (.unitInt n)) false w) :=
  C72_no_sampler_refused dice_good (by intro v hv; simp [dice] at hv) (by simp [dice]) dice_from
    (Or.inl ⟨n, rfl⟩) _

/-- A die with a transition that is a number, stepped through a field. -/
example : rfStep (fun _ => ['v']) ⟨[⟨{ die with tran := .scalar (1 / 3) }, 0, []⟩], .none, .none, none⟩ arrays
      [(['x'], .scalar 2)] none false w =
    DRV.step (fun _ => ['v']) { die with tran := .scalar (1 / 3) } (.scalar 2) none false 0 [] w.r w.perm w.u := by
  have hG : Spec.GoodField (fun _ => ['v'])
      ⟨[⟨{ die with tran := .scalar (1 / 3) }, 0, []⟩], .none, .none, none⟩ := by
    refine ⟨by simp, by simp [RField.names], ?_, ?_⟩
    · intro v hv
      obtain rfl := List.mem_singleton.mp hv
      have hd := die_named (fun _ => ['v']) rfl
      cases hd
      constructor <;> assumption
    · intro v hv
      obtain rfl := List.mem_singleton.mp hv
      simp [Drawn.name, die]
  refine C72_single hG rfl rfl rfl rfl rfl (s0 := .lin 1) (b := .lin 1) ?_
    (by simp [PScale.spec, evalPscale]) (by simp [die, evalPscale]) (pred := [(['x'], .scalar 2)]) (x := 2)
    (by simp [Spec.request, Dict.get?, DRV.evaluate, Drawn.name, die]) none (fun _ => rfl) false
  have h1 : rfScales [⟨{ die with tran := .scalar (1 / 3) }, 0, []⟩] = .ok [.lin 1] := by
    simp [rfScales, die, evalPscale, pure, Except.pure, bind, Except.bind]
  have h2 : prodPscale ([PScale.lin 1].map PScale.spec) none = .ok (some (.lin 1)) := by
    have := C04_linear_partial ([PScale.lin 1].map PScale.spec) [.lin 1] (by simp)
      (.cons (by simp [PScale.spec, evalPscale]) .nil) (by simp [PScale.spec, PSpec.iscomplex])
    simpa [Spec.factor] using this
  simp only [rfScale, h1, h2, bind, Except.bind, pure, Except.pure]

end Probayes
