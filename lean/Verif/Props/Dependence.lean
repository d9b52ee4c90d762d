/-
Property C45: leafs, stems and roots partition the variables of a dependence.
-/
import Verif.Model.Dependence
import Verif.Props.Field

namespace Probayes

/-- Specification: leafs condition no other variable, roots condition others and
depend on none, stems do both. -/
structure Spec.Classified (d : DepObj) : Prop where
  edges : ∀ e ∈ d.edges, e.1 ∈ d.nodes ∧ e.2 ∈ d.nodes
  leafs : ∀ v, v ∈ d.leafs ↔ v ∈ d.nodes ∧ ¬ ∃ w, (v, w) ∈ d.edges
  roots : ∀ v, v ∈ d.roots.getD [] ↔
    v ∈ d.nodes ∧ (∃ w, (v, w) ∈ d.edges) ∧ ¬ ∃ u, (u, v) ∈ d.edges
  stems : ∀ v, v ∈ d.stems.vals ↔
    v ∈ d.nodes ∧ (∃ w, (v, w) ∈ d.edges) ∧ ∃ u, (u, v) ∈ d.edges

/-- Exactly one of three statements. -/
def Spec.ExactlyOne (a b c : Prop) : Prop :=
  (a ∧ ¬ b ∧ ¬ c) ∨ (¬ a ∧ b ∧ ¬ c) ∨ (¬ a ∧ ¬ b ∧ c)

/-- C45: in a classified dependence every variable is in exactly one class. -/
theorem C45_exactly_one (d : DepObj) (h : Spec.Classified d) (v : ℕ) (hv : v ∈ d.nodes) :
    Spec.ExactlyOne (v ∈ d.leafs) (v ∈ d.roots.getD []) (v ∈ d.stems.vals) := by
  unfold Spec.ExactlyOne
  rw [h.leafs, h.roots, h.stems]
  by_cases hc : ∃ w, (v, w) ∈ d.edges <;> by_cases hp : ∃ u, (u, v) ∈ d.edges <;>
    simp [hv, hc, hp]

/-- C45 full claim: every dependence built from variables and fields, or from
classified dependences, is classified. -/
def C45_claim : Prop :=
  ∀ (info : ℕ → VarInfo) (st : Bool), (∀ u v, (info u).name = (info v).name → u = v) →
    (∀ (fs : List (List ℕ)) d, (∀ f ∈ fs, f ≠ [] ∧ f.Nodup) → depOfFields info st fs = .ok d →
      Spec.Classified d) ∧
    (∀ (ds : List DepObj) d, (∀ e ∈ ds, Spec.Classified e) → depOfDeps info st ds = .ok d →
      Spec.Classified d)

theorem hasParents_iff (es : List (ℕ × ℕ)) (v : ℕ) : hasParents es v = true ↔ ∃ u, (u, v) ∈ es := by
  simp only [hasParents, List.any_eq_true, decide_eq_true_eq]
  constructor
  · rintro ⟨⟨a, b⟩, h, rfl⟩; exact ⟨a, h⟩
  · rintro ⟨u, h⟩; exact ⟨(u, v), h, rfl⟩

theorem hasChildren_iff (es : List (ℕ × ℕ)) (v : ℕ) :
    hasChildren es v = true ↔ ∃ w, (v, w) ∈ es := by
  simp only [hasChildren, List.any_eq_true, decide_eq_true_eq]
  constructor
  · rintro ⟨⟨a, b⟩, h, rfl⟩; exact ⟨b, h⟩
  · rintro ⟨w, h⟩; exact ⟨(v, w), h, rfl⟩

theorem mem_addNode (l : List ℕ) (a v : ℕ) : v ∈ addNode l a ↔ v ∈ l ∨ v = a := by
  unfold addNode
  split
  · rename_i h
    constructor
    · exact Or.inl
    · rintro (h' | rfl)
      · exact h'
      · exact h
  · simp

theorem mem_foldl_addNode (l : List ℕ) : ∀ (acc : List ℕ) (v : ℕ),
    v ∈ l.foldl addNode acc ↔ v ∈ acc ∨ v ∈ l := by
  induction l with
  | nil => simp
  | cons a l ih =>
      intro acc v
      rw [List.foldl_cons, ih, mem_addNode]
      simp only [List.mem_cons, or_assoc]

theorem nodup_addNode (l : List ℕ) (a : ℕ) (h : l.Nodup) : (addNode l a).Nodup := by
  unfold addNode
  split
  · exact h
  · rename_i ha
    rw [List.nodup_append]
    exact ⟨h, by simp, by rintro x hx y hy rfl; simp at hy; subst hy; exact ha hx⟩

theorem nodup_foldl_addNode (l : List ℕ) : ∀ (acc : List ℕ), acc.Nodup →
    (l.foldl addNode acc).Nodup := by
  induction l with
  | nil => intro acc h; exact h
  | cons a l ih => intro acc h; exact ih _ (nodup_addNode _ _ h)

/-- Reading back the variables of a field with injective names. -/
theorem ofUpdates_vals_mem (info : ℕ → VarInfo) (hinj : ∀ u v, (info u).name = (info v).name → u = v)
    (l : List ℕ) (v : ℕ) :
    v ∈ Dict.vals (Dict.ofUpdates (l.map fun v => ((info v).name, v))) ↔ v ∈ l := by
  have key : ∀ (l : List ℕ) (acc : Dict Str ℕ), (∀ kv ∈ acc, kv.1 = (info kv.2).name) →
      (∀ kv ∈ (l.map fun v => ((info v).name, v)).foldl (fun d kv => d.set kv.1 kv.2) acc,
        kv.1 = (info kv.2).name) ∧
      ∀ v, v ∈ Dict.vals ((l.map fun v => ((info v).name, v)).foldl
        (fun d kv => d.set kv.1 kv.2) acc) ↔ v ∈ Dict.vals acc ∨ v ∈ l := by
    intro l
    induction l with
    | nil => intro acc h; exact ⟨h, by simp⟩
    | cons a l ih =>
        intro acc h
        have hset : (∀ kv ∈ acc.set (info a).name a, kv.1 = (info kv.2).name) ∧
            ∀ v, v ∈ Dict.vals (acc.set (info a).name a) ↔ v ∈ Dict.vals acc ∨ v = a := by
          clear ih
          induction acc with
          | nil => simp [Dict.set, Dict.vals]
          | cons kv acc ih' =>
              obtain ⟨k, w⟩ := kv
              have hk : k = (info w).name := h (k, w) (by simp)
              obtain ⟨i1, i2⟩ := ih' (fun kv hkv => h kv (by simp [hkv]))
              by_cases hka : k = (info a).name
              · have hwa : w = a := hinj _ _ (hk ▸ hka)
                subst hwa
                simp only [Dict.set, hka, if_true]
                refine ⟨?_, ?_⟩
                · intro kv hkv
                  rcases List.mem_cons.mp hkv with rfl | hkv
                  · rfl
                  · exact h kv (by simp [hkv])
                · intro v; simp [Dict.vals]; tauto
              · simp only [Dict.set, if_neg hka]
                refine ⟨?_, ?_⟩
                · intro kv hkv
                  rcases List.mem_cons.mp hkv with rfl | hkv
                  · exact hk
                  · exact i1 kv hkv
                · intro v
                  have := i2 v
                  simp only [Dict.vals, List.map_cons, List.mem_cons] at this ⊢
                  rw [this]; tauto
        obtain ⟨h1, h2⟩ := ih (acc.set (info a).name a) hset.1
        refine ⟨by simpa using h1, ?_⟩
        intro v
        have := h2 v
        simp only [List.map_cons, List.foldl_cons]
        rw [this, hset.2 v]
        simp only [List.mem_cons, or_assoc]
  have := (key l [] (by simp)).2 v
  simpa [Dict.ofUpdates, Dict.vals] using this

theorem fieldOf_mem (info : ℕ → VarInfo) (st : Bool)
    (hinj : ∀ u v, (info u).name = (info v).name → u = v) (vs r : List ℕ)
    (h : fieldOf info st vs = .ok r) (v : ℕ) : v ∈ r ↔ v ∈ vs := by
  unfold fieldOf at h
  have hadd : ∀ (arg : AddArg) (s : FieldState),
      addVar info st FieldState.empty arg = (s, none) →
      ∀ v, v ∈ s.vars.vals ↔ v ∈ (match arg with | .single w => [w] | .many ws => ws) := by
    intro arg s hs v
    cases arg with
    | single w =>
        simp [addVar, addLoop, FieldState.empty, addNode, refresh] at hs
        rw [← hs.1]
        have := ofUpdates_vals_mem info hinj [w] v
        simpa using this
    | many ws =>
        simp only [addVar, FieldState.empty, addLoop_zero] at hs
        rcases hl : ws.getLast? with _ | x
        · simp [hl] at hs
        · have hx : x ∈ ws := List.mem_of_getLast? hl
          have hxm : x ∈ ws.foldl addNode [] := (mem_foldl_addNode ws [] x).mpr (Or.inr hx)
          have hadd : addNode (ws.foldl addNode []) x = ws.foldl addNode [] := if_pos hxm
          simp only [hl, hadd] at hs
          simp [refresh] at hs
          rw [← hs.1]
          simp only
          rw [ofUpdates_vals_mem info hinj, mem_foldl_addNode]
          simp
  rcases hm : mkField info st vs with ⟨s, _ | e⟩
  · simp only [hm, Except.ok.injEq] at h
    subst h
    unfold mkField at hm
    split at hm
    · exact hadd _ s hm v
    · exact hadd _ s hm v
  · simp [hm] at h

/-- C45: whenever the classes are determined from the graph (one dependence, or
several neither in series nor in parallel), they are as specified. -/
theorem C45_general_partial (info : ℕ → VarInfo) (st : Bool)
    (hinj : ∀ u v, (info u).name = (info v).name → u = v) (nodes : List ℕ)
    (edges : List (ℕ × ℕ)) (hwf : ∀ e ∈ edges, e.1 ∈ nodes ∧ e.2 ∈ nodes) (d : DepObj)
    (h : depRefresh info st nodes edges = .ok d) :
    Spec.Classified d ∧ d.nodes = nodes ∧ d.edges = edges := by
  unfold depRefresh at h
  rcases hl : fieldOf info st (leafNodes nodes edges) with e | l
  · simp [hl] at h
  · simp only [hl] at h
    rcases hr : rootField info st (rootNodes nodes edges) with e | r
    · simp [hr] at h
    · simp only [hr] at h
      rcases hp : depPreds info st edges l (stemNodes info nodes edges) r with e | p
      · simp [hp] at h
      · simp only [hp, Except.ok.injEq] at h
        subst h
        refine ⟨⟨hwf, ?_, ?_, ?_⟩, rfl, rfl⟩
        · intro v
          rw [fieldOf_mem info st hinj _ _ hl]
          simp only [leafNodes, List.mem_filter, Bool.not_eq_true', ← Bool.not_eq_true,
            hasChildren_iff]
        · intro v
          have : v ∈ r.getD [] ↔ v ∈ rootNodes nodes edges := by
            unfold rootField at hr
            by_cases he : (rootNodes nodes edges).isEmpty = true
            · rw [if_pos he] at hr
              simp only [Except.ok.injEq] at hr
              subst hr
              rw [List.isEmpty_iff] at he
              simp [he]
            · rw [if_neg he] at hr
              rcases hf : fieldOf info st (rootNodes nodes edges) with e | r'
              · simp [hf] at hr
              · simp only [hf, Except.ok.injEq] at hr
                subst hr
                exact fieldOf_mem info st hinj _ _ hf v
          rw [this]
          simp only [rootNodes, List.mem_filter, Bool.and_eq_true, Bool.not_eq_true',
            ← Bool.not_eq_true, hasChildren_iff, hasParents_iff]
        · intro v
          simp only [stemNodes]
          rw [ofUpdates_vals_mem info hinj]
          simp only [List.mem_filter, Bool.and_eq_true, hasChildren_iff, hasParents_iff]

/-- C45: a graph in which every variable conditions another one is refused. -/
theorem C45_no_leafs_raises (info : ℕ → VarInfo) (st : Bool) (nodes : List ℕ)
    (edges : List (ℕ × ℕ)) (h : ∀ v ∈ nodes, ∃ w, (v, w) ∈ edges) :
    Raises (depRefresh info st nodes edges) := by
  have : leafNodes nodes edges = [] := by
    unfold leafNodes
    rw [List.filter_eq_nil_iff]
    intro v hv
    simp only [Bool.not_eq_true', Bool.not_eq_false]
    exact (hasChildren_iff edges v).mpr (h v hv)
  simp [depRefresh, this, fieldOf, mkField, addVar, addLoop, FieldState.empty, Raises]

/-- C45: one or two fields without common variables are classified. -/
theorem C45_fields_partial (info : ℕ → VarInfo) (st : Bool) (fs : List (List ℕ)) (d : DepObj)
    (hne : ∀ f ∈ fs, f ≠ []) (hdisj : fs.Pairwise fun l r => ∀ v ∈ l, v ∉ r)
    (h : depOfFields info st fs = .ok d) : Spec.Classified d := by
  match fs with
  | [] => simp [depOfFields] at h
  | [f] =>
      simp [depOfFields, depRefreshGiven, depPreds] at h
      subst h
      refine ⟨by simp, ?_, by simp, by simp [Dict.vals]⟩
      intro v; simp [mem_foldl_addNode]
  | [l, r] =>
      simp [depOfFields, depRefreshGiven, depPreds] at h
      subst h
      have hdisj' : ∀ v ∈ l, v ∉ r := by simpa using hdisj
      obtain ⟨x, hx⟩ := List.exists_mem_of_ne_nil l (hne l (by simp))
      obtain ⟨y, hy⟩ := List.exists_mem_of_ne_nil r (hne r (by simp))
      have hedge : ∀ a b, (a, b) ∈ (r.flatMap fun u => l.map fun v => (u, v)) ↔ a ∈ r ∧ b ∈ l := by
        intro a b; simp
      have hmem : ∀ v, v ∈ r.foldl addNode (l.foldl addNode []) ↔ v ∈ l ∨ v ∈ r := by
        intro v; simp [mem_foldl_addNode]
      refine ⟨?_, ?_, ?_, ?_⟩
      · rintro ⟨a, b⟩ he
        have := (hedge a b).mp he
        exact ⟨(hmem a).mpr (Or.inr this.1), (hmem b).mpr (Or.inl this.2)⟩
      · intro v
        simp only [hmem, hedge]
        constructor
        · intro hv; exact ⟨Or.inl hv, fun ⟨w, h1, _⟩ => hdisj' v hv h1⟩
        · rintro ⟨hv | hv, h2⟩
          · exact hv
          · exact absurd ⟨x, hv, hx⟩ h2
      · intro v
        simp only [hmem, hedge, Option.getD_some]
        constructor
        · intro hv; exact ⟨Or.inr hv, ⟨x, hv, hx⟩, fun ⟨u, _, h2⟩ => hdisj' v h2 hv⟩
        · rintro ⟨_, ⟨w, h1, _⟩, _⟩; exact h1
      · intro v
        simp only [hmem, hedge, Dict.vals, List.map_nil, List.not_mem_nil, false_iff, not_and]
        rintro _ ⟨w, h1, _⟩ ⟨u, _, h2⟩
        exact hdisj' v h2 h1
  | a :: b :: c :: rest => simp [depOfFields] at h

/-- C45: three or more fields cannot be combined. -/
theorem C45_three_fields_raise (info : ℕ → VarInfo) (st : Bool) (a b c : List ℕ)
    (rest : List (List ℕ)) : Raises (depOfFields info st (a :: b :: c :: rest)) := ⟨_, rfl⟩

theorem mapM_runLeafsRoots (ds : List DepObj) : ∀ lr, ds.mapM runLeafsRoots = .ok lr →
    lr = ds.map (fun d => (d.leafs, d.roots.getD [])) ∧ ∀ d ∈ ds, d.roots.isSome := by
  induction ds with
  | nil => intro lr h; simp [pure, Except.pure] at h; simp [← h]
  | cons d ds ih =>
      intro lr h
      rw [List.mapM_cons] at h
      rcases hr : d.roots with _ | r
      · simp [runLeafsRoots, hr, bind, Except.bind] at h
      · rcases hm : ds.mapM runLeafsRoots with e | lr'
        · simp [runLeafsRoots, hr, hm, bind, Except.bind] at h
        · simp [runLeafsRoots, hr, hm, bind, Except.bind, pure, Except.pure] at h
          obtain ⟨h1, h2⟩ := ih lr' hm
          rw [← h, h1]
          refine ⟨by simp [hr], ?_⟩
          intro d' hd'
          rcases List.mem_cons.mp hd' with rfl | hd'
          · simp [hr]
          · exact h2 d' hd'

theorem parallelLoop_spec (lr : List (List ℕ × List ℕ)) : ∀ (leafs roots : List ℕ), leafs ≠ [] →
    (parallelLoop lr leafs roots).1 = true →
    (∀ p ∈ lr, p.1 = leafs) ∧
      (parallelLoop lr leafs roots).2 = roots ++ lr.flatMap Prod.snd := by
  induction lr with
  | nil => intro leafs roots _ _; simp [parallelLoop]
  | cons p lr ih =>
      intro leafs roots hne h
      obtain ⟨l, r⟩ := p
      have he : leafs.isEmpty = false := by cases leafs <;> simp_all
      simp only [parallelLoop, he, Bool.false_eq_true, if_false] at h ⊢
      by_cases hc : r.isEmpty = true ∨ leafs ≠ l
      · rw [if_pos hc] at h; cases h
      · rw [if_neg hc] at h ⊢
        obtain ⟨h1, h2⟩ := ih leafs (roots ++ r) hne h
        push Not at hc
        refine ⟨?_, by rw [h2]; simp⟩
        intro p hp
        rcases List.mem_cons.mp hp with rfl | hp
        · exact hc.2.symm
        · exact h1 p hp

/-- Specification: dependences are in series if the roots of each are the leafs of
the next. -/
def Spec.InSeries (ds : List DepObj) : Prop :=
  ∀ i d d', ds[i]? = some d → ds[i + 1]? = some d' → ∀ v, v ∈ d.roots.getD [] ↔ v ∈ d'.leafs

theorem isSerial_iff (ds : List DepObj) :
    isSerial (ds.map fun d => (d.leafs, d.roots.getD [])) = true ↔ Spec.InSeries ds := by
  induction ds with
  | nil => simp [isSerial, Spec.InSeries]
  | cons d ds ih =>
      rcases ds with _ | ⟨d', ds⟩
      · simp only [List.map_cons, List.map_nil, isSerial, true_iff]
        intro i e e' h1 h2; simp at h2
      · simp only [List.map_cons, isSerial, Bool.and_eq_true, List.all_eq_true,
          decide_eq_true_eq] at ih ⊢
        rw [ih]
        constructor
        · rintro ⟨⟨h1, h2⟩, h3⟩ i e e' he he' v
          rcases i with _ | i
          · obtain rfl : d = e := by simpa using he
            obtain rfl : d' = e' := by simpa using he'
            exact ⟨h1 v, h2 v⟩
          · exact h3 i e e' (by simpa using he) (by simpa using he') v
        · intro h
          refine ⟨⟨fun v hv => (h 0 d d' rfl rfl v).mp hv, fun v hv => (h 0 d d' rfl rfl v).mpr hv⟩, ?_⟩
          intro i e e' he he'
          exact h (i + 1) e e' (by simpa using he) (by simpa using he')

/-- C45: dependences in series combine to one from the roots of the last to the
leafs of the first; the variables between are in no class (so the claim fails). -/
theorem C45_series_partial (info : ℕ → VarInfo) (st : Bool) (d0 d1 : DepObj) (ds : List DepObj)
    (hroots : ∀ e ∈ d0 :: d1 :: ds, e.roots ≠ none) (hser : Spec.InSeries (d0 :: d1 :: ds)) :
    ∃ d, depOfDeps info st (d0 :: d1 :: ds) = .ok d ∧ d.leafs = d0.leafs ∧
      d.roots = ((d1 :: ds).getLast (by simp)).roots ∧ d.stems = [] ∧
      (∀ e, e ∈ d.edges ↔ ∃ c ∈ d0 :: d1 :: ds, e ∈ c.edges) := by
  have hm : ∀ cs : List DepObj, (∀ e ∈ cs, e.roots ≠ none) →
      cs.mapM runLeafsRoots = .ok (cs.map fun d => (d.leafs, d.roots.getD [])) := by
    intro cs
    induction cs with
    | nil => intro _; rfl
    | cons c cs ih =>
        intro h
        obtain ⟨r, hr⟩ := Option.ne_none_iff_exists'.mp (h c (by simp))
        rw [List.mapM_cons, ih (fun e he => h e (by simp [he]))]
        simp [runLeafsRoots, hr, bind, Except.bind, pure, Except.pure]
  have hlast : ∃ r, ((d1 :: ds).getLast (by simp)).roots = some r :=
    Option.ne_none_iff_exists'.mp (hroots _ (List.mem_cons_of_mem _ (List.getLast_mem _)))
  obtain ⟨r, hr⟩ := hlast
  have hl2 : ((d0 :: d1 :: ds).map fun d => (d.leafs, d.roots.getD [])).getLast? =
      some (((d1 :: ds).getLast (by simp)).leafs, r) := by
    rw [List.getLast?_map, List.getLast?_eq_some_getLast (by simp), List.getLast_cons (by simp)]
    simp [hr]
  have hbool : (decide (1 < (d0 :: d1 :: ds).length) &&
      isSerial ((d0 :: d1 :: ds).map fun d => (d.leafs, d.roots.getD []))) = true := by
    rw [(isSerial_iff _).mpr hser]; simp
  unfold depOfDeps
  rw [hm _ hroots]
  simp only [hbool, if_true, hl2]
  refine ⟨_, rfl, rfl, hr.symm, rfl, ?_⟩
  intro e
  simp only [depEdges, List.mem_flatMap, List.mem_reverse]

/-- C45: combining classified dependences without stems, not in series (so in
parallel or neither), gives a classified dependence. -/
theorem C45_deps_partial (info : ℕ → VarInfo) (st : Bool)
    (hinj : ∀ u v, (info u).name = (info v).name → u = v) (ds : List DepObj) (d : DepObj)
    (hcl : ∀ e ∈ ds, Spec.Classified e ∧ e.stems = [] ∧ e.leafs ≠ [])
    (hser : ¬ Spec.InSeries ds ∨ ds.length ≤ 1)
    (h : depOfDeps info st ds = .ok d) : Spec.Classified d := by
  unfold depOfDeps at h
  rcases hm : ds.mapM runLeafsRoots with e | lr
  · simp [hm] at h
  · obtain ⟨hlr, hsome⟩ := mapM_runLeafsRoots ds lr hm
    have hns : (1 < ds.length && isSerial lr) = false := by
      rw [hlr]
      rcases hser with h | h
      · rw [← isSerial_iff, Bool.not_eq_true] at h
        simp [h]
      · simp; omega
    simp only [hm, hns, Bool.false_eq_true, if_false] at h
    have hnodes : ∀ v, v ∈ depNodes ds ↔ ∃ e ∈ ds, v ∈ e.nodes := by
      intro v
      simp only [depNodes, mem_foldl_addNode, List.not_mem_nil, false_or, List.mem_flatMap]
      constructor
      · rintro (⟨e, he, hv⟩ | h)
        · exact ⟨e, he, (((hcl e he).1.leafs v).mp hv).1⟩
        · exact h
      · exact Or.inr
    have hedges : ∀ p, p ∈ depEdges ds ↔ ∃ e ∈ ds, p ∈ e.edges := by
      intro p; simp [depEdges]
    have hwf : ∀ e ∈ depEdges ds, e.1 ∈ depNodes ds ∧ e.2 ∈ depNodes ds := by
      intro p hp
      obtain ⟨e, he, hpe⟩ := (hedges p).mp hp
      have := (hcl e he).1.edges p hpe
      exact ⟨(hnodes _).mpr ⟨e, he, this.1⟩, (hnodes _).mpr ⟨e, he, this.2⟩⟩
    by_cases hpar : (1 < ds.length && (parallelLoop lr [] []).1) = true
    · rw [if_pos hpar] at h
      rcases ds with _ | ⟨e0, ds'⟩
      · simp at hpar
      · have hp1 : (parallelLoop lr [] []).1 = true := by
          simp only [Bool.and_eq_true] at hpar; exact hpar.2
        have hp' : parallelLoop lr [] [] =
            parallelLoop (ds'.map fun d => (d.leafs, d.roots.getD [])) e0.leafs
              (e0.roots.getD []) := by
          rw [hlr]; simp [parallelLoop]
        rw [hp'] at hp1
        obtain ⟨hsame, hroots⟩ := parallelLoop_spec _ _ _ (hcl e0 (by simp)).2.2 hp1
        have hall : ∀ e ∈ e0 :: ds', e.leafs = e0.leafs := by
          intro e he
          rcases List.mem_cons.mp he with rfl | he
          · rfl
          · exact hsame (e.leafs, e.roots.getD []) (List.mem_map.mpr ⟨e, he, rfl⟩)
        have hhead : lr.head? = some (e0.leafs, e0.roots.getD []) := by rw [hlr]; simp
        rw [hp', hroots, hhead] at h
        rcases hf : fieldOf info st (e0.roots.getD [] ++
            (ds'.map fun d => (d.leafs, d.roots.getD [])).flatMap Prod.snd) with er | r
        · simp [hf] at h
        · simp [hf, depRefreshGiven, depPreds] at h
          subst h
          have hrm : ∀ v, v ∈ r ↔ ∃ e ∈ e0 :: ds', v ∈ e.roots.getD [] := by
            intro v
            rw [fieldOf_mem info st hinj _ _ hf]
            simp only [List.mem_append, List.mem_flatMap, List.mem_map, List.mem_cons,
              exists_eq_or_imp]
            constructor
            · rintro (h | ⟨p, ⟨e, he, rfl⟩, hv⟩)
              · exact Or.inl h
              · exact Or.inr ⟨e, he, hv⟩
            · rintro (h | ⟨e, he, hv⟩)
              · exact Or.inl h
              · exact Or.inr ⟨_, ⟨e, he, rfl⟩, hv⟩
          -- a node with a parent in one argument is a leaf everywhere
          have hkey : ∀ e ∈ e0 :: ds', ∀ u v, (u, v) ∈ e.edges → v ∈ e0.leafs := by
            intro e he u v huv
            have hv := ((hcl e he).1.edges _ huv).2
            rw [← hall e he, (hcl e he).1.leafs]
            refine ⟨hv, ?_⟩
            intro hch
            have := ((hcl e he).1.stems v).mpr ⟨hv, hch, ⟨u, huv⟩⟩
            rw [(hcl e he).2.1] at this
            simp [Dict.vals] at this
          have hleafno : ∀ v ∈ e0.leafs, ∀ e ∈ e0 :: ds', ¬ ∃ w, (v, w) ∈ e.edges := by
            intro v hv e he
            rw [← hall e he] at hv
            exact (((hcl e he).1.leafs v).mp hv).2
          refine ⟨hwf, ?_, ?_, ?_⟩
          · intro v
            simp only [hnodes, hedges]
            constructor
            · intro hv
              refine ⟨⟨e0, by simp, (((hcl e0 (by simp)).1.leafs v).mp hv).1⟩, ?_⟩
              rintro ⟨w, e, he, hw⟩
              exact hleafno v hv e he ⟨w, hw⟩
            · rintro ⟨⟨e, he, hv⟩, hno⟩
              rw [← hall e he, (hcl e he).1.leafs]
              exact ⟨hv, fun ⟨w, hw⟩ => hno ⟨w, e, he, hw⟩⟩
          · intro v
            simp only [Option.getD_some, hrm, hnodes, hedges]
            constructor
            · rintro ⟨e, he, hv⟩
              obtain ⟨h1, ⟨w, h2⟩, h3⟩ := ((hcl e he).1.roots v).mp hv
              refine ⟨⟨e, he, h1⟩, ⟨w, e, he, h2⟩, ?_⟩
              rintro ⟨u, e', he', hu⟩
              exact hleafno v (hkey e' he' u v hu) e he ⟨w, h2⟩
            · rintro ⟨_, ⟨w, e, he, hw⟩, hno⟩
              refine ⟨e, he, ((hcl e he).1.roots v).mpr ⟨((hcl e he).1.edges _ hw).1, ⟨w, hw⟩, ?_⟩⟩
              rintro ⟨u, hu⟩
              exact hno ⟨u, e, he, hu⟩
          · intro v
            simp only [hnodes, hedges, Dict.vals, List.map_nil, List.not_mem_nil, false_iff, not_and]
            rintro _ ⟨w, e, he, hw⟩ ⟨u, e', he', hu⟩
            exact hleafno v (hkey e' he' u v hu) e he ⟨w, hw⟩
    · rw [if_neg hpar] at h
      exact (C45_general_partial info st hinj _ _ hwf d h).1

/-- C45 fails in series: in `(x|y) , (y|z)` the variable `y` is in no class. -/
theorem C45_claim_fails : ¬ C45_claim := by
  intro h
  have hinj : ∀ u v : ℕ, (List.replicate u 'a') = (List.replicate v 'a') → u = v := by
    intro u v h; simpa using congrArg List.length h
  obtain ⟨h1, h2⟩ := h (fun v => ⟨List.replicate v 'a', false⟩) false hinj
  have c1 := h1 [[0], [1]] _ (by simp) rfl
  have c2 := h1 [[1], [2]] _ (by simp) rfl
  have hc := h2 [_, _] _ (by
    intro e he
    simp only [List.mem_cons, List.not_mem_nil, or_false] at he
    rcases he with rfl | rfl
    · exact c1
    · exact c2) rfl
  have := (hc.stems 1).mpr ⟨by decide, ⟨0, by decide⟩, ⟨2, by decide⟩⟩
  revert this
  decide

/-- C45 also fails for fields with a common variable: it is both leaf and root. -/
theorem C45_common_variable_fails (info : ℕ → VarInfo) : ∃ d,
    depOfFields info false [[0], [0, 1]] = .ok d ∧ 0 ∈ d.leafs ∧ 0 ∈ d.roots.getD [] :=
  ⟨_, rfl, by decide, by decide⟩

/-- Non-vacuity of `C45_deps_partial`: `(x|y)` and `(x|z)` in parallel. -/
example : ∃ (info : ℕ → VarInfo) (d1 d2 d : DepObj),
    (∀ u v, (info u).name = (info v).name → u = v) ∧
    depOfFields info false [[0], [1]] = .ok d1 ∧ depOfFields info false [[0], [2]] = .ok d2 ∧
    depOfDeps info false [d1, d2] = .ok d ∧ d.leafs = [0] ∧ d.roots = some [1, 2] := by
  refine ⟨fun v => ⟨List.replicate v 'a', false⟩, _, _, _, ?_, rfl, rfl, rfl, rfl, rfl⟩
  intro u v h; simpa using congrArg List.length h

/-- Non-vacuity of `C45_series_partial`: `(x|y)` and `(y|z)`. -/
example : ∃ (info : ℕ → VarInfo) (d1 d2 : DepObj),
    depOfFields info false [[0], [1]] = .ok d1 ∧ depOfFields info false [[1], [2]] = .ok d2 ∧
    (∀ e ∈ [d1, d2], e.roots ≠ none) ∧ Spec.InSeries [d1, d2] := by
  refine ⟨fun v => ⟨List.replicate v 'a', false⟩, _, _, rfl, rfl, by simp, ?_⟩
  rw [← isSerial_iff]
  rfl

/-- Non-vacuity of `C45_general_partial`: a chain `2 → 1 → 0`, with stem `1`. -/
example : ∃ d, depRefresh (fun v => ⟨List.replicate v 'a', false⟩) false [0, 1, 2]
    [(1, 0), (2, 1)] = .ok d ∧ d.leafs = [0] ∧ d.roots = some [2] ∧ d.stems.vals = [1] :=
  ⟨_, rfl, rfl, rfl, rfl⟩

end Probayes
