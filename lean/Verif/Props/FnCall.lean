/-
C75: the functions of a functional are called by the names of their outputs, with
the values of their own inputs.
-/
import Verif.Model.FnCall
import Verif.Props.Functional
import Verif.Props.Expression
import Verif.Props.Expr
import Verif.Lemmas.PDProduct

namespace Probayes

/-! ### Specification -/

/-- The things given name exactly the names `N`: by one string with commas, by one
object, or by several strings and objects, in any order. -/
inductive Spec.Naming : Idents → Finset Str → Prop
  | text (names : List Str) (hne : names ≠ []) (hc : ∀ n ∈ names, ',' ∉ n) :
      Spec.Naming (.one (.str ([','].intercalate names))) names.toFinset
  | object (n : Str) : Spec.Naming (.one (.named n)) {n}
  | several (is : List Ident) (names : List Str)
      (h : List.Forall₂ (fun i n => i = .str n ∨ i = .named n) is names) :
      Spec.Naming (.many is) names.toFinset

/-- The value a keyword has last been given. -/
def Spec.passed {V : Type} (own dflt call : Dict Str V) (k : Str) : Option V :=
  match call.get? k with
  | some v => some v
  | none => match dflt.get? k with
    | some v => some v
    | none => own.get? k

/-- The state after functions have been added one after the other. -/
noncomputable def Spec.after (s : FnState) (as : List FnSpec) : FnState :=
  as.foldl (fun s a => (addFunc s a).1) s

/-- Every addition succeeds. -/
def Spec.AllAdded (s : FnState) (as : List FnSpec) : Prop :=
  ∀ (pre : List FnSpec) (a : FnSpec), pre ++ [a] <+: as → (addFunc (Spec.after s pre) a).2 = none

/-- `i` are the inputs of a function added: those specified, or its symbols. -/
def Spec.InputsOf (a : FnSpec) (f : FuncObj) (i : Finset Str) : Prop :=
  match a.inp with
  | some j => i = j
  | none => i = f.symbols

/-! ### Names -/

theorem mapM_names {is : List Ident} {names : List Str}
    (h : List.Forall₂ (fun i n => i = .str n ∨ i = .named n) is names) :
    is.mapM Ident.name = .ok names := by
  induction h with
  | nil => rfl
  | cons h _ ih =>
      rw [List.mapM_cons, ih]
      rcases h with rfl | rfl <;> rfl

/-- C75 (names): identifiers naming `N` are parsed as `N`, whatever their form and
order. -/
theorem C75_names {ids : Idents} {N : Finset Str} (h : Spec.Naming ids N) :
    parseIdentifiers ids = .ok N := by
  cases h with
  | text names hne hc =>
      show Except.ok _ = _
      rw [List.splitOn_intercalate _ _ hne]
      exact hc
  | object n => rfl
  | several is names h =>
      simp only [parseIdentifiers, bind, Except.bind, mapM_names h]
      rfl

example : Spec.Naming (.one (.str "b,a".toList)) {['a'], ['b']} := by
  have := Spec.Naming.text [['b'], ['a']] (by simp) (by decide)
  have he : ([['b'], ['a']] : List Str).toFinset = {['a'], ['b']} := by decide
  rwa [he] at this

example : Spec.Naming (.many [.named ['b'], .str ['a']]) {['a'], ['b']} := by
  have := Spec.Naming.several [.named ['b'], .str ['a']] [['b'], ['a']]
    (.cons (.inr rfl) (.cons (.inl rfl) .nil))
  have he : ([['b'], ['a']] : List Str).toFinset = {['a'], ['b']} := by decide
  rwa [he] at this

/-- C75 (names): things without a name are refused. -/
theorem C75_nameless_refused (is : List Ident) (h : Ident.bare ∈ is ∨ Ident.misnamed ∈ is) :
    parseIdentifiers (.many is) = .error .assertion ∧
    parseIdentifiers (.one .bare) = .error .assertion ∧
    parseIdentifiers (.one .misnamed) = .error .assertion := by
  refine ⟨?_, rfl, rfl⟩
  have hm : is.mapM Ident.name = .error .assertion := by
    induction is with
    | nil => simp at h
    | cons i is ih =>
        rw [List.mapM_cons]
        cases i with
        | bare => rfl
        | misnamed => rfl
        | str s => rw [ih (by simpa using h)]; rfl
        | named s => rw [ih (by simpa using h)]; rfl
  simp [parseIdentifiers, hm, bind, Except.bind]

/-! ### The order mappings -/

/-- What becomes of a function when the partials are set. -/
def Settles (inpSet : Finset Str) (dep : Option (Option (Finset Str))) (f f' : FuncObj) : Prop :=
  (f.ordered = true ∧ f' = f) ∨
  (f.ordered = false ∧ ∃ d, dep = some (some d) ∧
    f' = { f with ordered := decide (inpSet \ d).Nonempty, ignored := inpSet \ d }) ∨
  (f.ordered = false ∧ dep = some none ∧ f' = { f with ignored := ∅ })

theorem setPartials_settles (inpSet : Finset Str) (deps : Dict (Finset Str) (Option (Finset Str)))
    (fs : Dict (Finset Str) FuncObj) (h : (setPartials inpSet deps fs).2.2 = none) :
    ∀ k f, fs.get? k = some f → ∃ f', (setPartials inpSet deps fs).1.get? k = some f' ∧
      Settles inpSet (deps.get? k) f f' := by
  induction fs with
  | nil => intro k f hf; simp [Dict.get?] at hf
  | cons kf fs ih =>
      obtain ⟨k0, f0⟩ := kf
      have key : ∀ g, Settles inpSet (deps.get? k0) f0 g →
          (setPartials inpSet deps ((k0, f0) :: fs)).1 = (k0, g) :: (setPartials inpSet deps fs).1 →
          (setPartials inpSet deps fs).2.2 = none →
          ∀ k f, Dict.get? ((k0, f0) :: fs) k = some f →
            ∃ f', (setPartials inpSet deps ((k0, f0) :: fs)).1.get? k = some f' ∧
              Settles inpSet (deps.get? k) f f' := by
        intro g hg he hn k f hf
        rw [he]
        by_cases hk : k0 = k
        · subst hk
          have : f0 = f := by simpa [Dict.get?] using hf
          subst this
          exact ⟨g, by simp [Dict.get?], hg⟩
        · have : Dict.get? fs k = some f := by simpa [Dict.get?, hk] using hf
          obtain ⟨f', h1, h2⟩ := ih hn k f this
          exact ⟨f', by simpa [Dict.get?, hk] using h1, h2⟩
      by_cases ho : f0.ordered = true
      · have he : setPartials inpSet deps ((k0, f0) :: fs) =
            ((k0, f0) :: (setPartials inpSet deps fs).1, k0 :: (setPartials inpSet deps fs).2.1,
              (setPartials inpSet deps fs).2.2) := by
          simp only [setPartials, ho, if_true]
        rw [he] at h
        exact key f0 (.inl ⟨ho, rfl⟩) (by rw [he]) h
      · have ho' : f0.ordered = false := by simpa using ho
        rcases hd : deps.get? k0 with _ | _ | d
        · simp [setPartials, ho', hd] at h
        · by_cases hne : inpSet.Nonempty
          · simp [setPartials, ho', hd, hne] at h
          · by_cases hdel : f0.hasDelta = true
            · simp [setPartials, ho', hd, hne, hdel] at h
            · have he : setPartials inpSet deps ((k0, f0) :: fs) =
                  ((k0, { f0 with ignored := ∅ }) :: (setPartials inpSet deps fs).1,
                    k0 :: (setPartials inpSet deps fs).2.1, (setPartials inpSet deps fs).2.2) := by
                simp only [setPartials, ho', hd, hne, hdel, if_false, Bool.false_eq_true]
              rw [he] at h
              exact key _ (.inr (.inr ⟨ho', hd, rfl⟩)) (by rw [he]) h
        · by_cases hdel : f0.hasDelta = true
          · simp [setPartials, ho', hd, hdel] at h
          · have he : setPartials inpSet deps ((k0, f0) :: fs) =
                ((k0, { f0 with ordered := decide (inpSet \ d).Nonempty, ignored := inpSet \ d }) ::
                  (setPartials inpSet deps fs).1,
                  k0 :: (setPartials inpSet deps fs).2.1, (setPartials inpSet deps fs).2.2) := by
              simp only [setPartials, ho', hd, hdel, if_false, Bool.false_eq_true]
            rw [he] at h
            exact key _ (.inr (.inl ⟨ho', d, hd, rfl⟩)) (by rw [he]) h

theorem addFunc_form {s s' : FnState} {a : FnSpec} (h : addFunc s a = (s', none)) :
    ∃ f i D, a.expr = .ok f ∧ Spec.InputsOf a f i ∧
      (∀ k, Dict.get? D k = if a.out = k then some (some i) else s.deps.get? k) ∧
      s'.inpSet = s.inpSet ∧ s'.deps = D ∧
      (setPartials s.inpSet D (s.funcs.set a.out f)).2.2 = none ∧
      s'.funcs = (setPartials s.inpSet D (s.funcs.set a.out f)).1 ∧
      s'.partials = (setPartials s.inpSet D (s.funcs.set a.out f)).2.1 := by
  have hn : a.out ∉ s.deps.keys := by
    intro hc
    rw [C47_same_outputs_refused s a hc] at h
    simp at h
  have hend : ∀ (t : FnState) (i : Finset Str), addFuncEnd t a.out i = (s', none) →
      s'.inpSet = t.inpSet ∧ s'.deps = t.deps ∧
      (setPartials t.inpSet t.deps t.funcs).2.2 = none ∧
      s'.funcs = (setPartials t.inpSet t.deps t.funcs).1 ∧
      s'.partials = (setPartials t.inpSet t.deps t.funcs).2.1 := by
    intro t i ht
    unfold addFuncEnd at ht
    split at ht
    · simp at ht
    · split at ht
      · simp at ht
      · simp only [Prod.mk.injEq] at ht
        obtain ⟨rfl, h2⟩ := ht
        exact ⟨rfl, rfl, h2, rfl, rfl⟩
  have hinp : ∀ (t : FnState) (f : FuncObj), a.expr = .ok f → t.inpSet = s.inpSet →
      t.deps = s.deps.set a.out a.inp → t.funcs = s.funcs.set a.out f →
      addFuncInp t a.out a.inp f = (s', none) → 
      ∃ f i D, a.expr = .ok f ∧ Spec.InputsOf a f i ∧
      (∀ k, Dict.get? D k = if a.out = k then some (some i) else s.deps.get? k) ∧
      s'.inpSet = s.inpSet ∧ s'.deps = D ∧
      (setPartials s.inpSet D (s.funcs.set a.out f)).2.2 = none ∧
      s'.funcs = (setPartials s.inpSet D (s.funcs.set a.out f)).1 ∧
      s'.partials = (setPartials s.inpSet D (s.funcs.set a.out f)).2.1 := by
    intro t f hf h1 h2 h3 ht
    unfold addFuncInp at ht
    split at ht
    · rename_i i hi
      obtain ⟨e1, e2, e3, e4, e5⟩ := hend t i ht
      rw [h1, h2, h3] at e3 e4 e5
      rw [h1] at e1
      rw [h2] at e2
      refine ⟨f, i, _, hf, by rw [Spec.InputsOf, hi], ?_, e1, e2, e3, e4, e5⟩
      intro k
      rw [Dict.get?_set, hi]
    · rename_i hi
      split at ht
      · simp at ht
      · obtain ⟨e1, e2, e3, e4, e5⟩ := hend _ _ ht
        simp only [h1, h2, h3] at e1 e2 e3 e4 e5
        refine ⟨f, f.symbols, _, hf, by rw [Spec.InputsOf, hi], ?_, e1, e2, e3, e4, e5⟩
        intro k
        rw [Dict.get?_set]
        split
        · rfl
        · rename_i hne
          rw [Dict.get?_set, if_neg hne]
  rcases addFunc_cases s a hn with ⟨e, _, he⟩ | ⟨f, b, hf, he | ⟨-, he⟩⟩
  · rw [he] at h; simp at h
  · rw [he] at h; simp at h
  · rw [he] at h
    unfold addFuncIconic at h
    split at h
    · split at h
      · simp at h
      · split at h
        · simp at h
        · split at h
          · split at h
            · simp at h
            · exact hinp { addedState s a f b with dexpr := _ } f hf rfl rfl rfl h
          · simp at h
    · exact hinp (addedState s a f b) f hf rfl rfl rfl h

/-- Every function registered discards exactly the inputs it does not depend on. -/
structure FnInv (s : FnState) : Prop where
  keys : s.funcs.keys = s.deps.keys
  parts : s.partials = s.deps.keys
  settled : ∀ k f, s.funcs.get? k = some f → ∃ d, s.deps.get? k = some (some d) ∧
    f.ordered = decide (s.inpSet \ d).Nonempty ∧ f.ignored = s.inpSet \ d

theorem FnInv.step {s s' : FnState} {a : FnSpec} (hs : FnInv s) (h : addFunc s a = (s', none))
    (hord : ∀ f, a.expr = .ok f → f.ordered = false) :
    FnInv s' ∧ s'.inpSet = s.inpSet ∧
    (∃ f i f', a.expr = .ok f ∧ Spec.InputsOf a f i ∧ s'.funcs.get? a.out = some f' ∧
      f'.id = f.id ∧ f'.isiconic = f.isiconic ∧ f'.ignored = s.inpSet \ i) ∧
    ∀ k f, s.funcs.get? k = some f → s'.funcs.get? k = some f := by
  obtain ⟨hn, hk, -, hp, -⟩ := C47_success s a s' h hs.keys
  have hfk := hs.keys
  obtain ⟨f, i, D, hf, hi, hD, h1, h2, h3, h4, h5⟩ := addFunc_form h
  have hset := setPartials_settles s.inpSet D (s.funcs.set a.out f) h3
  have hfo := hord f hf
  have hnf : a.out ∉ s.funcs.keys := by rw [hs.keys]; exact hn
  -- the new function
  obtain ⟨f', hf', hst⟩ := hset a.out f (by rw [Dict.get?_set, if_pos rfl])
  have hDo : Dict.get? D a.out = some (some i) := by rw [hD, if_pos rfl]
  have hf'eq : f' =
      { f with ordered := decide (s.inpSet \ i).Nonempty, ignored := s.inpSet \ i } := by
    rcases hst with ⟨ho, -⟩ | ⟨-, d, hd, he⟩ | ⟨-, hd, -⟩
    · rw [hfo] at ho; cases ho
    · rw [hDo] at hd
      obtain rfl : i = d := by simpa using hd
      exact he
    · rw [hDo] at hd; simp at hd
  -- the old ones
  have hold : ∀ k g, s.funcs.get? k = some g → s'.funcs.get? k = some g := by
    intro k g hg
    have hne : a.out ≠ k := by
      rintro rfl
      exact hnf (Dict.mem_keys_of_get? hg)
    obtain ⟨g', hg', hst⟩ := hset k g (by rw [Dict.get?_set, if_neg hne]; exact hg)
    obtain ⟨d, hd, ho, hig⟩ := hs.settled k g hg
    rw [hD, if_neg hne, hd] at hst
    have : g' = g := by
      rcases hst with ⟨-, he⟩ | ⟨-, d', hd', he⟩ | ⟨-, hd', -⟩
      · exact he
      · obtain rfl : d = d' := by simpa using hd'
        rw [he, ← ho, ← hig]
      · simp at hd'
    rw [h4, hg', this]
  have hkeys : s'.funcs.keys = s'.deps.keys := by
    rw [h4, (setPartials_spec s.inpSet D _).1, Dict.keys_set, if_neg hnf, hk, hs.keys]
  refine ⟨⟨hkeys, by rw [hp, hk], ?_⟩, h1, ⟨f, i, f', hf, hi, by rw [h4]; exact hf', ?_, ?_, ?_⟩, hold⟩
  · intro k g hg
    rw [h1, h2]
    by_cases hne : a.out = k
    · subst hne
      rw [h4, hf'] at hg
      obtain rfl : f' = g := by simpa using hg
      exact ⟨i, hDo, by rw [hf'eq], by rw [hf'eq]⟩
    · have hkm : k ∈ s.funcs.keys := by
        have := Dict.mem_keys_of_get? hg
        rw [hkeys, hk, List.mem_append] at this
        rcases this with h | h
        · rw [hs.keys]; exact h
        · exact absurd (List.mem_singleton.mp h).symm hne
      obtain ⟨g0, hg0⟩ := Dict.get?_of_mem_keys hkm
      have := hold k g0 hg0
      rw [this] at hg
      obtain rfl : g0 = g := by simpa using hg
      obtain ⟨d, hd, ho, hig⟩ := hs.settled k g0 hg0
      exact ⟨d, by rw [hD, if_neg hne, hd], ho, hig⟩
  · rw [hf'eq]
  · rw [hf'eq]
  · rw [hf'eq]

theorem FnInv.init (outs inps : Finset Str) : FnInv (FnState.init outs inps) :=
  ⟨rfl, rfl, fun k f h => by simp [FnState.init, Dict.get?] at h⟩

theorem FnInv.sequence {s : FnState} (hs : FnInv s) : ∀ {as : List FnSpec},
    Spec.AllAdded s as → (∀ a ∈ as, ∀ f, a.expr = .ok f → f.ordered = false) →
    FnInv (Spec.after s as) ∧ (Spec.after s as).inpSet = s.inpSet ∧
    (∀ k f, s.funcs.get? k = some f → (Spec.after s as).funcs.get? k = some f) ∧
    ∀ a ∈ as, ∃ f i f', a.expr = .ok f ∧ Spec.InputsOf a f i ∧
      (Spec.after s as).funcs.get? a.out = some f' ∧
      f'.id = f.id ∧ f'.isiconic = f.isiconic ∧ f'.ignored = s.inpSet \ i := by
  intro as
  induction as generalizing s with
  | nil => intro _ _; exact ⟨hs, rfl, fun _ _ h => h, by simp⟩
  | cons a as ih =>
      intro hadd hord
      have h0 := hadd [] a ⟨as, rfl⟩
      obtain ⟨s', hs'⟩ : ∃ s', addFunc s a = (s', none) :=
        ⟨(addFunc s a).1, Prod.ext rfl h0⟩
      obtain ⟨i1, i2, ⟨f, i, f', e1, e2, e3, e4⟩, i4⟩ := hs.step hs' (hord a (by simp))
      have hcons : ∀ as, Spec.after s (a :: as) = Spec.after s' as := by
        intro as
        show Spec.after (addFunc s a).1 as = _
        rw [hs']
      have hadd' : Spec.AllAdded s' as := by
        intro pre b hp
        have := hadd (a :: pre) b (by
          obtain ⟨t, ht⟩ := hp
          exact ⟨t, by rw [← ht]; simp⟩)
        rwa [hcons] at this
      obtain ⟨j1, j2, j3, j4⟩ := ih i1 hadd' fun b hb => hord b (by simp [hb])
      rw [hcons]
      refine ⟨j1, j2.trans i2, fun k g hg => j3 k g (i4 k g hg), ?_⟩
      intro b hb
      rcases List.mem_cons.mp hb with rfl | hb
      · exact ⟨f, i, f', e1, e2, j3 _ _ e3, e4⟩
      · obtain ⟨g, j, g', k1, k2, k3, k4, k5, k6⟩ := j4 b hb
        exact ⟨g, j, g', k1, k2, k3, k4, k5, by rw [k6, i2]⟩

/-! ### Calls with discarded keywords -/

theorem orderLoop_drops {V : Type} : ∀ (ks : List Str) (c : Call V), ks.Nodup → c.kwds.keys.Nodup →
    ((∀ k ∈ ks, c.kwds.get? k ≠ none) →
      ∃ r, orderLoop (ks.map fun k => (k, Route.drop)) c = .ok r ∧ r.args = c.args ∧
        ∀ k, r.kwds.get? k = if k ∈ ks then none else c.kwds.get? k) ∧
    ((∃ k ∈ ks, c.kwds.get? k = none) →
      orderLoop (ks.map fun k => (k, Route.drop)) c = .error .key) := by
  intro ks
  induction ks with
  | nil => intro c _ _; exact ⟨fun _ => ⟨c, rfl, rfl, by simp⟩, by simp⟩
  | cons k0 ks ih =>
      intro c hn hc
      rw [List.nodup_cons] at hn
      rcases hg : c.kwds.get? k0 with _ | v
      · refine ⟨fun h => absurd hg (h k0 (by simp)), fun _ => ?_⟩
        simp [orderLoop, Dict.pop, hg]
      · have hstep : orderLoop ((k0 :: ks).map fun k => (k, Route.drop)) c =
            orderLoop (ks.map fun k => (k, Route.drop)) { c with kwds := c.kwds.erase k0 } := by
          simp [orderLoop, Dict.pop, hg, route]
        obtain ⟨i1, i2⟩ := ih { c with kwds := c.kwds.erase k0 } hn.2 (Dict.nodup_erase _ hc k0).1
        have hget : ∀ k ∈ ks, (c.kwds.erase k0).get? k = c.kwds.get? k := by
          intro k hk
          rw [Dict.get?_erase _ hc, if_neg]
          rintro rfl
          exact hn.1 hk
        rw [hstep]
        constructor
        · intro h
          obtain ⟨r, r1, r2, r3⟩ := i1 fun k hk => by rw [hget k hk]; exact h k (by simp [hk])
          refine ⟨r, r1, r2, fun k => ?_⟩
          rw [r3, Dict.get?_erase _ hc]
          by_cases h1 : k ∈ ks <;> by_cases h2 : k = k0 <;> simp [h1, h2]
        · rintro ⟨k, hk, hkn⟩
          rcases List.mem_cons.mp hk with rfl | hk
          · rw [hg] at hkn; cases hkn
          · exact i2 ⟨k, hk, by rw [hget k hk]; exact hkn⟩

theorem ints_drops (ks : List Str) :
    Route.ints (Dict.vals (ks.map fun k => (k, Route.drop))) = [] := by
  induction ks with
  | nil => rfl
  | cons k ks ih => simpa [Dict.vals, Route.ints] using ih

theorem exprCall_drops {V : Type} (sub : V → V → V) (ks : List Str) (l0 : Bool) (c : Call V)
    (hks : ks.Nodup) (hc : c.kwds.keys.Nodup) (hd : ∀ d, c.args ≠ [.dict d]) :
    ((∀ k ∈ ks, c.kwds.get? k ≠ none) → (ks = [] → l0 = false) →
      ∃ r, exprCall sub ⟨some (ks.map fun k => (k, Route.drop)), none⟩ l0 c = .ok r ∧
        r.args = c.args ∧ ∀ k, r.kwds.get? k = if k ∈ ks then none else c.kwds.get? k) ∧
    ((∃ k ∈ ks, c.kwds.get? k = none) →
      exprCall sub ⟨some (ks.map fun k => (k, Route.drop)), none⟩ l0 c = .error .key) := by
  have hun : unpackDict c = c := by
    unfold unpackDict
    split
    · rename_i d h; exact absurd h (hd d)
    · rfl
  have hpad : padArgs c.args (ks.map fun k => (k, Route.drop)) = c.args := by
    unfold padArgs
    rw [ints_drops]
    simp
  obtain ⟨h1, h2⟩ := orderLoop_drops ks c hks hc
  rcases ks with _ | ⟨k0, ks⟩
  · refine ⟨fun _ hl => ⟨c, ?_, rfl, by simp⟩, by simp⟩
    simp [exprCall, truthy, hun, hl rfl]
  · have : exprCall sub ⟨some ((k0 :: ks).map fun k => (k, Route.drop)), none⟩ l0 c =
        orderLoop ((k0 :: ks).map fun k => (k, Route.drop)) c := by
      simp only [exprCall, hun, hpad, truthy, List.map_cons]
      rw [List.map_cons] at hpad
      rw [hpad]
    rw [this]
    exact ⟨fun h _ => h1 h, h2⟩

/-! ### Calling what has been added -/

theorem fnIndex_ok {s : FnState} (hs : FnInv s) {ids : Idents} {o : Finset Str}
    (hids : Spec.Naming ids o) {f : FuncObj} (hf : s.funcs.get? o = some f) :
    fnIndex s ids = .ok f := by
  have hk : o ∈ s.partials := by
    rw [hs.parts, ← hs.keys]; exact Dict.mem_keys_of_get? hf
  have hne : s.partials.isEmpty = false := by
    cases hp : s.partials with
    | nil => rw [hp] at hk; simp at hk
    | cons a l => rfl
  simp [fnIndex, C75_names hids, bind, Except.bind, hne, fnGet, hk, hf]

theorem kwds_given {V : Type} (own dflt c : Dict Str V) (hd : dflt.keys.Nodup) (hc : c.keys.Nodup)
    (k : Str) :
    ((kwdsOver dflt c).foldl (fun acc kv => acc.set kv.1 kv.2) own).get? k =
      Spec.passed own dflt c k := by
  have hn : (kwdsOver dflt c).keys.Nodup := nodup_foldl_set c dflt hd
  rw [foldl_set_get?' _ _ _ hn, kwdsOver, foldl_set_get?' c dflt k hc, Spec.passed]
  cases c.get? k <;> rfl

/-- The values with which calls are made: no keyword is given twice within the
arguments kept by the function, those kept by the functional, or those of the call. -/
structure Spec.Keywords {V : Type} (own dflt c : Call V) : Prop where
  own : own.kwds.keys.Nodup
  dflt : dflt.kwds.keys.Nodup
  call : c.kwds.keys.Nodup

/-- C75: whatever functions have been added (each without an order of its own), each
is called by the names of its outputs, with the positional arguments it was added
with, those of the functional and those of the call, in this order, and with the
keywords given, those of the call taking precedence over those of the functional and
these over its own, except for the inputs of the functional it does not depend on,
provided that these are given.  Missing for the full claim (`C75_claim`, which fails):
that values of its own inputs are sufficient. -/
theorem C75_call_partial {V : Type} (sub : V → V → V) (enum : Finset Str → List Str)
    (henum : ∀ s, (enum s).Nodup ∧ ∀ k, k ∈ enum s ↔ k ∈ s) (own : ℕ → Call V)
    (lambda0 : ℕ → Bool) (dflt : Call V) (outs inps : Finset Str) (as : List FnSpec)
    (hadd : Spec.AllAdded (FnState.init outs inps) as)
    (hord : ∀ a ∈ as, ∀ f, a.expr = .ok f → f.ordered = false)
    (a : FnSpec) (ha : a ∈ as) (f : FuncObj) (hf : a.expr = .ok f) (hic : f.isiconic = false)
    (hl : lambda0 f.id = false) (i : Finset Str) (hi : Spec.InputsOf a f i)
    (ids : Idents) (hids : Spec.Naming ids a.out) (c : Call V)
    (hk : Spec.Keywords (own f.id) dflt c)
    (hd : ∀ d, (own f.id).args ++ (dflt.args ++ c.args) ≠ [.dict d])
    (hgiven : ∀ k ∈ inps, k ∉ i → Spec.passed (own f.id).kwds dflt.kwds c.kwds k ≠ none) :
    ∃ r, fnCall sub enum own lambda0 dflt (Spec.after (FnState.init outs inps) as) ids c =
        .ok (f.id, r) ∧
      r.args = (own f.id).args ++ (dflt.args ++ c.args) ∧
      ∀ k, r.kwds.get? k = if k ∈ inps ∧ k ∉ i then none
        else Spec.passed (own f.id).kwds dflt.kwds c.kwds k := by
  obtain ⟨hinv, -, -, hall⟩ := (FnInv.init outs inps).sequence hadd hord
  obtain ⟨f0, i0, f', h1, h2, h3, h4, h5, h6⟩ := hall a ha
  rw [hf] at h1
  obtain rfl : f = f0 := by simpa using h1
  obtain rfl : i = i0 := by
    unfold Spec.InputsOf at hi h2
    split at hi
    · rename_i j hj
      rw [hj] at h2; exact hi.trans h2.symm
    · rename_i hj
      rw [hj] at h2; exact hi.trans h2.symm
  have hmem : ∀ k, k ∈ enum f'.ignored ↔ k ∈ inps ∧ k ∉ i := by
    intro k
    rw [(henum _).2, h6]
    exact Finset.mem_sdiff
  obtain ⟨hok, -⟩ := exprCall_drops sub (enum f'.ignored) (lambda0 f'.id)
    ⟨(own f'.id).args ++ (dflt.args ++ c.args),
      (kwdsOver dflt.kwds c.kwds).foldl (fun acc kv => acc.set kv.1 kv.2) (own f'.id).kwds⟩
    (henum _).1 (nodup_foldl_set _ _ (by rw [h4]; exact hk.own)) (by rw [h4]; exact hd)
  have hget : ∀ k, Dict.get? ((kwdsOver dflt.kwds c.kwds).foldl (fun acc kv => acc.set kv.1 kv.2)
      (own f'.id).kwds) k = Spec.passed (own f.id).kwds dflt.kwds c.kwds k := by
    intro k
    rw [kwds_given _ _ _ hk.dflt hk.call, h4]
  obtain ⟨r, r1, r2, r3⟩ := hok (by
    intro k hkm
    obtain ⟨k1, k2⟩ := (hmem k).mp hkm
    show Dict.get? _ k ≠ none
    rw [hget]
    exact hgiven k k1 k2) (fun _ => by rw [h4]; exact hl)
  refine ⟨r, ?_, by rw [r2, h4], fun k => ?_⟩
  · have hr1 : exprPartial sub ⟨some (fnOrder enum f'), none⟩ (lambda0 f'.id) (own f'.id)
        ⟨dflt.args ++ c.args, kwdsOver dflt.kwds c.kwds⟩ = .ok r := r1
    have hic' : f'.isiconic = false := h5.trans hic
    simp only [fnCall, fnIndex_ok hinv hids h3, bind, Except.bind, hic', hr1, pure, Except.pure,
      Bool.false_eq_true, if_false]
    rw [h4]
  · rw [r3]
    simp only [hmem, hget]

/-- C75: if an input of the functional that the function does not depend on is given
neither in the call nor beforehand, the call is refused. -/
theorem C75_others_missing_refused {V : Type} (sub : V → V → V) (enum : Finset Str → List Str)
    (henum : ∀ s, (enum s).Nodup ∧ ∀ k, k ∈ enum s ↔ k ∈ s) (own : ℕ → Call V)
    (lambda0 : ℕ → Bool) (dflt : Call V) (outs inps : Finset Str) (as : List FnSpec)
    (hadd : Spec.AllAdded (FnState.init outs inps) as)
    (hord : ∀ a ∈ as, ∀ f, a.expr = .ok f → f.ordered = false)
    (a : FnSpec) (ha : a ∈ as) (f : FuncObj) (hf : a.expr = .ok f) (hic : f.isiconic = false)
    (i : Finset Str) (hi : Spec.InputsOf a f i)
    (ids : Idents) (hids : Spec.Naming ids a.out) (c : Call V)
    (hk : Spec.Keywords (own f.id) dflt c)
    (hd : ∀ d, (own f.id).args ++ (dflt.args ++ c.args) ≠ [.dict d])
    (k : Str) (hki : k ∈ inps) (hkn : k ∉ i)
    (hmiss : Spec.passed (own f.id).kwds dflt.kwds c.kwds k = none) :
    fnCall sub enum own lambda0 dflt (Spec.after (FnState.init outs inps) as) ids c =
      .error .key := by
  obtain ⟨hinv, -, -, hall⟩ := (FnInv.init outs inps).sequence hadd hord
  obtain ⟨f0, i0, f', h1, h2, h3, h4, h5, h6⟩ := hall a ha
  rw [hf] at h1
  obtain rfl : f = f0 := by simpa using h1
  obtain rfl : i = i0 := by
    unfold Spec.InputsOf at hi h2
    split at hi
    · rename_i j hj
      rw [hj] at h2; exact hi.trans h2.symm
    · rename_i hj
      rw [hj] at h2; exact hi.trans h2.symm
  obtain ⟨-, herr⟩ := exprCall_drops sub (enum f'.ignored) (lambda0 f'.id)
    ⟨(own f'.id).args ++ (dflt.args ++ c.args),
      (kwdsOver dflt.kwds c.kwds).foldl (fun acc kv => acc.set kv.1 kv.2) (own f'.id).kwds⟩
    (henum _).1 (nodup_foldl_set _ _ (by rw [h4]; exact hk.own)) (by rw [h4]; exact hd)
  have r1 : exprPartial sub ⟨some (fnOrder enum f'), none⟩ (lambda0 f'.id) (own f'.id)
      ⟨dflt.args ++ c.args, kwdsOver dflt.kwds c.kwds⟩ = .error .key := by
    refine herr ⟨k, ?_, ?_⟩
    · rw [(henum _).2, h6]
      exact Finset.mem_sdiff.mpr ⟨hki, hkn⟩
    · show Dict.get? _ k = none
      rw [kwds_given _ _ _ hk.dflt hk.call, h4]
      exact hmiss
  have hic' : f'.isiconic = false := h5.trans hic
  simp only [fnCall, fnIndex_ok hinv hids h3, bind, Except.bind, hic', r1,
    Bool.false_eq_true, if_false]

/-- C75: a symbolic function is evaluated from values of its own symbols, whatever
else the functional has as inputs. -/
theorem C75_symbolic (argsort : List ℝ → List ℕ) (expr : ℕ → ExprObj) (outs inps : Finset Str)
    (as : List FnSpec) (hadd : Spec.AllAdded (FnState.init outs inps) as)
    (hord : ∀ a ∈ as, ∀ f, a.expr = .ok f → f.ordered = false)
    (a : FnSpec) (ha : a ∈ as) (f : FuncObj) (hf : a.expr = .ok f) (hic : f.isiconic = true)
    (ids : Idents) (hids : Spec.Naming ids a.out)
    (hE : Spec.Depends (expr f.id)) (hnd : (expr f.id).syms.Nodup)
    (v : Str → EVal) (args : List EArg) (kwds : Dict Str EVal) (hkn : kwds.keys.Nodup)
    (h : Spec.Assigns (expr f.id) v args kwds)
    (x : Str → ℝ) (hx : ∀ s ∈ (expr f.id).syms, Spec.number (v s) = some (x s)) :
    fnEval argsort expr [] [] (Spec.after (FnState.init outs inps) as) ids args kwds =
      .ok (.num ((expr f.id).fn x)) := by
  obtain ⟨hinv, -, -, hall⟩ := (FnInv.init outs inps).sequence hadd hord
  obtain ⟨f0, i0, f', h1, h2, h3, h4, h5, h6⟩ := hall a ha
  rw [hf] at h1
  obtain rfl : f = f0 := by simpa using h1
  have hkw : kwdsOver [] kwds = kwds := by
    have : ∀ (u base : Dict Str EVal), (base ++ u).keys.Nodup →
        u.foldl (fun acc kv => Dict.set acc kv.1 kv.2) base = base ++ u := by
      intro u
      induction u with
      | nil => intro base _; simp
      | cons kv u ih =>
          intro base hb
          rw [List.foldl_cons, Dict.set_of_notMem]
          · rw [ih]
            · simp
            · simpa [Dict.keys] using hb
          · intro hc
            simp only [Dict.keys, List.map_append, List.map_cons] at hb hc
            exact (List.nodup_append.mp hb).2.2 _ hc _ (by simp) rfl
    exact this kwds [] hkn
  have hic' : f'.isiconic = true := h5.trans hic
  simp only [fnEval, fnIndex_ok hinv hids h3, bind, Except.bind, hic', if_true, List.nil_append,
    hkw, h4]
  exact C67_numbers argsort _ hE hnd v args kwds h x hx

/-- C75: names that are not those of the outputs of a function added index nothing:
KeyError, or TypeError as long as no function has been added. -/
theorem C75_unknown_refused (outs inps : Finset Str) (as : List FnSpec)
    (hadd : Spec.AllAdded (FnState.init outs inps) as) 
    (hord : ∀ a ∈ as, ∀ f, a.expr = .ok f → f.ordered = false)
    (ids : Idents) (o : Finset Str) (hids : Spec.Naming ids o) (ho : ∀ a ∈ as, a.out ≠ o) :
    fnIndex (Spec.after (FnState.init outs inps) as) ids =
      .error (if as = [] then .type else .key) := by
  obtain ⟨hinv, -, -, -⟩ := (FnInv.init outs inps).sequence hadd hord
  have hk := C47_sequence as (FnState.init outs inps) rfl hadd
  change (Spec.after (FnState.init outs inps) as).deps.keys = _ at hk
  have hp : (Spec.after (FnState.init outs inps) as).partials = as.map FnSpec.out := by
    rw [hinv.parts, hk]; rfl
  have hn : o ∉ (Spec.after (FnState.init outs inps) as).partials := by
    rw [hp]
    intro hc
    obtain ⟨a, ha, he⟩ := List.mem_map.mp hc
    exact ho a ha he
  simp only [fnIndex, C75_names hids, bind, Except.bind, fnGet, if_neg hn]
  rw [hp]
  cases as <;> simp

theorem exprCall_dict {V : Type} (sub : V → V → V) (m : ExprMaps) (l0 : Bool) (d kw : Dict Str V) :
    exprCall sub m l0 ⟨[.dict d], kw⟩ = exprCall sub m l0 ⟨[], kwdsOver kw d⟩ := rfl

/-- C75: without other positional arguments, a dictionary may be given with or in
place of keywords, over which it takes precedence. -/
theorem C75_dict_partial {V : Type} (sub : V → V → V) (enum : Finset Str → List Str)
    (henum : ∀ s, (enum s).Nodup ∧ ∀ k, k ∈ enum s ↔ k ∈ s) (own : ℕ → Call V)
    (lambda0 : ℕ → Bool) (dflt : Call V) (outs inps : Finset Str) (as : List FnSpec)
    (hadd : Spec.AllAdded (FnState.init outs inps) as)
    (hord : ∀ a ∈ as, ∀ f, a.expr = .ok f → f.ordered = false)
    (a : FnSpec) (ha : a ∈ as) (f : FuncObj) (hf : a.expr = .ok f) (hic : f.isiconic = false)
    (hl : lambda0 f.id = false) (i : Finset Str) (hi : Spec.InputsOf a f i)
    (ids : Idents) (hids : Spec.Naming ids a.out) (d kwds : Dict Str V) (hd : d.keys.Nodup)
    (hk : Spec.Keywords (own f.id) dflt ⟨[.dict d], kwds⟩)
    (ho : (own f.id).args = []) (hdf : dflt.args = [])
    (hgiven : ∀ k ∈ inps, k ∉ i → d.get? k ≠ none ∨
      Spec.passed (own f.id).kwds dflt.kwds kwds k ≠ none) :
    ∃ r, fnCall sub enum own lambda0 dflt (Spec.after (FnState.init outs inps) as) ids
        ⟨[.dict d], kwds⟩ = .ok (f.id, r) ∧
      r.args = [] ∧
      ∀ k, r.kwds.get? k = if k ∈ inps ∧ k ∉ i then none
        else match d.get? k with
          | some v => some v
          | none => Spec.passed (own f.id).kwds dflt.kwds kwds k := by
  obtain ⟨hinv, -, -, hall⟩ := (FnInv.init outs inps).sequence hadd hord
  obtain ⟨f0, i0, f', h1, h2, h3, h4, h5, h6⟩ := hall a ha
  rw [hf] at h1
  obtain rfl : f = f0 := by simpa using h1
  obtain rfl : i = i0 := by
    unfold Spec.InputsOf at hi h2
    split at hi
    · rename_i j hj
      rw [hj] at h2; exact hi.trans h2.symm
    · rename_i hj
      rw [hj] at h2; exact hi.trans h2.symm
  have hmem : ∀ k, k ∈ enum f'.ignored ↔ k ∈ inps ∧ k ∉ i := by
    intro k
    rw [(henum _).2, h6]
    exact Finset.mem_sdiff
  have hn1 : (Dict.keys ((kwdsOver dflt.kwds kwds).foldl (fun acc kv => acc.set kv.1 kv.2)
      (own f'.id).kwds)).Nodup := nodup_foldl_set _ _ (by rw [h4]; exact hk.own)
  have hget : ∀ k, Dict.get? (kwdsOver ((kwdsOver dflt.kwds kwds).foldl
      (fun acc kv => acc.set kv.1 kv.2) (own f'.id).kwds) d) k =
      match d.get? k with
        | some v => some v
        | none => Spec.passed (own f.id).kwds dflt.kwds kwds k := by
    intro k
    rw [kwdsOver, foldl_set_get?' _ _ _ hd, kwds_given _ _ _ hk.dflt hk.call, h4]
    cases d.get? k <;> rfl
  obtain ⟨hok, -⟩ := exprCall_drops sub (enum f'.ignored) (lambda0 f'.id)
    ⟨[], kwdsOver ((kwdsOver dflt.kwds kwds).foldl (fun acc kv => acc.set kv.1 kv.2)
      (own f'.id).kwds) d⟩
    (henum _).1 (nodup_foldl_set _ _ hn1) (by simp)
  obtain ⟨r, r1, r2, r3⟩ := hok (by
    intro k hkm
    obtain ⟨k1, k2⟩ := (hmem k).mp hkm
    show Dict.get? _ k ≠ none
    rw [hget]
    rcases hgiven k k1 k2 with h | h
    · cases hdk : d.get? k with
      | none => exact absurd hdk h
      | some v => simp
    · cases hdk : d.get? k with
      | none => exact h
      | some v => simp) (fun _ => by rw [h4]; exact hl)
  refine ⟨r, ?_, r2, fun k => ?_⟩
  · have hr1 : exprPartial sub ⟨some (fnOrder enum f'), none⟩ (lambda0 f'.id) (own f'.id)
        ⟨dflt.args ++ [.dict d], kwdsOver dflt.kwds kwds⟩ = .ok r := by
      rw [exprPartial, h4, ho, hdf, ← h4]
      exact (exprCall_dict ..).trans r1
    have hic' : f'.isiconic = false := h5.trans hic
    simp only [fnCall, fnIndex_ok hinv hids h3, bind, Except.bind, hic', hr1, pure, Except.pure,
      Bool.false_eq_true, if_false]
    rw [h4]
  · rw [r3]
    simp only [hmem, hget]

/-- C75 full claim: a function added is called with values of its own inputs, by the
names of its outputs. -/
def C75_claim : Prop :=
  ∀ (enum : Finset Str → List Str), (∀ s, (enum s).Nodup ∧ ∀ k, k ∈ enum s ↔ k ∈ s) →
    ∀ (outs inps : Finset Str) (as : List FnSpec), Spec.AllAdded (FnState.init outs inps) as →
    (∀ a ∈ as, ∀ f, a.expr = .ok f → f.ordered = false) →
    ∀ a ∈ as, ∀ f, a.expr = .ok f → f.isiconic = false → ∀ i, Spec.InputsOf a f i →
    ∀ ids, Spec.Naming ids a.out → ∀ kwds : Dict Str ℕ, kwds.keys.Nodup →
    (∀ k, k ∈ kwds.keys ↔ k ∈ i) →
    ∃ r, fnCall (· - ·) enum (fun _ => ⟨[], []⟩) (fun _ => false) ⟨[], []⟩
        (Spec.after (FnState.init outs inps) as) ids ⟨[], kwds⟩ = .ok (f.id, r) ∧
      r.args = [] ∧ ∀ k, r.kwds.get? k = kwds.get? k

private abbrev fOne : FuncObj := ⟨0, false, ∅, false, false, ∅⟩
private abbrev fTwo : FuncObj := ⟨1, false, ∅, false, false, ∅⟩
private abbrev aOne : FnSpec := ⟨{['u']}, some {['x']}, .ok fOne, false⟩
private abbrev aTwo : FnSpec := ⟨{['v']}, some {['y']}, .ok fTwo, false⟩

private theorem added_one : addFunc (FnState.init {['u'], ['v']} {['x'], ['y']}) aOne =
    (⟨{['u'], ['v']}, {['x'], ['y']}, [({['u']}, some {['x']})], 1,
      [({['u']}, ⟨0, false, ∅, false, true, {['y']}⟩)], some false, [], [{['u']}]⟩, none) := by
  have h1 : ({['u']} : Finset Str) ⊆ {['u'], ['v']} := by decide
  have h2 : ({['x']} : Finset Str) ⊆ {['x'], ['y']} := by decide
  have h3 : ({['x'], ['y']} : Finset Str) \ {['x']} = {['y']} := by decide
  simp [addFunc, FnState.init, addFuncIconic, addFuncInp, addFuncEnd, setPartials, Dict.set,
    Dict.get?, h3]

private theorem added_two : (addFunc (Spec.after (FnState.init {['u'], ['v']} {['x'], ['y']})
    [aOne]) aTwo).2 = none := by
  have h : Spec.after (FnState.init {['u'], ['v']} {['x'], ['y']}) [aOne] =
    (addFunc (FnState.init {['u'], ['v']} {['x'], ['y']}) aOne).1 := rfl
  have h3 : ({['u']} : Finset Str) ≠ {['v']} := by decide
  have h4 : ({['v']} : Finset Str) ≠ {['u']} := by decide
  have h5 : ({['y']} : Finset Str) ⊆ {['x'], ['y']} := by decide
  have h6 : ({['v']} : Finset Str) ⊆ {['u'], ['v']} := by decide
  rw [h, added_one]
  simp [addFunc, addFuncIconic, addFuncInp, addFuncEnd, setPartials, Dict.set, Dict.get?, h3]

private theorem added_both :
    Spec.AllAdded (FnState.init {['u'], ['v']} {['x'], ['y']}) [aOne, aTwo] := by
  rintro pre a ⟨t, ht⟩
  rcases pre with _ | ⟨b, pre⟩
  · simp only [List.nil_append, List.cons_append, List.cons.injEq] at ht
    obtain ⟨rfl, -⟩ := ht
    show (addFunc (FnState.init {['u'], ['v']} {['x'], ['y']}) aOne).2 = none
    rw [added_one]
  · rcases pre with _ | ⟨b', pre⟩
    · simp only [List.nil_append, List.cons_append, List.cons.injEq] at ht
      obtain ⟨rfl, rfl, -⟩ := ht
      exact added_two
    · simp at ht

private theorem unordered_both : ∀ a ∈ [aOne, aTwo], ∀ f, a.expr = .ok f → f.ordered = false := by
  intro a ha f hf
  simp only [List.mem_cons, List.not_mem_nil, or_false] at ha
  rcases ha with rfl | rfl <;> (cases hf; rfl)

/-- C75 fails: with `u` a function of `x` and `v` one of `y`, `u` cannot be called with
`x` alone. -/
theorem C75_claim_fails : ¬ C75_claim := by
  classical
  intro h
  have henum : ∀ s : Finset Str, s.toList.Nodup ∧ ∀ k, k ∈ s.toList ↔ k ∈ s :=
    fun s => ⟨s.nodup_toList, fun k => Finset.mem_toList⟩
  have hn : Spec.Naming (.one (.named ['u'])) {['u']} := .object _
  obtain ⟨r, hr, -⟩ := h Finset.toList henum _ _ _ added_both unordered_both aOne (by simp) fOne rfl
    rfl {['x']} rfl _ hn [(['x'], 1)] (by simp [Dict.keys]) (by simp [Dict.keys])
  have := C75_others_missing_refused (V := ℕ) (· - ·) Finset.toList henum (fun _ => ⟨[], []⟩)
    (fun _ => false) ⟨[], []⟩ _ _ _ added_both unordered_both aOne (by simp) fOne rfl
    rfl {['x']} rfl _ hn ⟨[], [(['x'], 1)]⟩ ⟨by simp [Dict.keys], by simp [Dict.keys], by simp [Dict.keys]⟩
    (by simp) ['y'] (by decide) (by decide) (by simp [Spec.passed, Dict.get?])
  rw [this] at hr
  cases hr

/-- Non-vacuity of `C75_call_partial`: with both values given, `u` is called with `x`
alone. -/
example : ∃ r, fnCall (V := ℕ) (· - ·) Finset.toList (fun _ => ⟨[], []⟩) (fun _ => false) ⟨[], []⟩
      (Spec.after (FnState.init {['u'], ['v']} {['x'], ['y']}) [aOne, aTwo]) (.one (.named ['u']))
      ⟨[], [(['y'], 2), (['x'], 1)]⟩ = .ok (0, r) ∧
    r.kwds.get? ['x'] = some 1 ∧ r.kwds.get? ['y'] = none := by
  classical
  have henum : ∀ s : Finset Str, s.toList.Nodup ∧ ∀ k, k ∈ s.toList ↔ k ∈ s :=
    fun s => ⟨s.nodup_toList, fun k => Finset.mem_toList⟩
  obtain ⟨r, h1, -, h3⟩ := C75_call_partial (V := ℕ) (· - ·) Finset.toList henum (fun _ => ⟨[], []⟩)
    (fun _ => false) ⟨[], []⟩ _ _ _ added_both unordered_both aOne (by simp) fOne rfl
    rfl rfl {['x']} rfl _ (.object ['u']) ⟨[], [(['y'], 2), (['x'], 1)]⟩
    ⟨by simp [Dict.keys], by simp [Dict.keys], by simp [Dict.keys]⟩ (by simp) (by
      intro k hk hn
      simp only [Finset.mem_insert, Finset.mem_singleton] at hk hn
      rcases hk with rfl | rfl
      · exact absurd rfl hn
      · simp [Spec.passed, Dict.get?])
  exact ⟨r, h1, by rw [h3]; rfl, by rw [h3]; rfl⟩

/-- Non-vacuity of `C75_symbolic`: `u = x + 1`, within a functional that also has the
input `y`, is evaluated from `x` alone. -/
example : fnEval (fun _ => []) (fun _ => ⟨[['x']], fun v => v ['x'] + 1, [], false⟩) [] []
      (Spec.after (FnState.init {['u']} {['x'], ['y']})
        [⟨{['u']}, none, .ok ⟨0, true, {['x']}, false, false, ∅⟩, false⟩])
      (.one (.str ['u'])) [.val (.num 2)] [] = .ok (.num (2 + 1)) := by
  have h3 : ({['x'], ['y']} : Finset Str) \ {['x']} = {['y']} := by decide
  have hadd : Spec.AllAdded (FnState.init {['u']} {['x'], ['y']})
      [⟨{['u']}, none, .ok ⟨0, true, {['x']}, false, false, ∅⟩, false⟩] := by
    rintro pre a ⟨t, ht⟩
    rcases pre with _ | ⟨b, pre⟩
    · simp only [List.nil_append, List.cons_append, List.cons.injEq] at ht
      obtain ⟨rfl, -⟩ := ht
      simp [Spec.after, addFunc, FnState.init, addFuncIconic, addFuncInp, addFuncEnd, setPartials,
        Dict.set, Dict.get?]
    · simp at ht
  have hn : Spec.Naming (.one (.str ['u'])) {['u']} := by
    have := Spec.Naming.text [['u']] (by simp) (by decide)
    simpa using this
  refine C75_symbolic (fun _ => []) (fun _ => ⟨[['x']], fun v => v ['x'] + 1, [], false⟩) _ _ _ hadd
    (by simp) _ (List.mem_singleton.mpr rfl) ⟨0, true, {['x']}, false, false, ∅⟩ rfl rfl _ hn ?_
    (by simp) (fun _ => .num 2) _ [] (by simp [Dict.keys]) Spec.Assigns.positional (fun _ => 2)
    (by simp [Spec.number])
  intro u v h
  simp only [h ['x'] (by simp)]

/-- Non-vacuity of `C75_unknown_refused`. -/
example : fnIndex (Spec.after (FnState.init {['u'], ['v']} {['x'], ['y']}) [aOne, aTwo])
    (.many [.str ['u'], .str ['v']]) = .error .key := by
  have h := C75_unknown_refused _ _ _ added_both unordered_both (.many [.str ['u'], .str ['v']])
    {['u'], ['v']} (by
      have := Spec.Naming.several [.str ['u'], .str ['v']] [['u'], ['v']]
        (.cons (.inl rfl) (.cons (.inl rfl) .nil))
      simpa using this) (by
      intro a ha
      simp only [List.mem_cons, List.not_mem_nil, or_false] at ha
      rcases ha with rfl | rfl <;> decide)
  simpa using h

/-! ### Making functionals and adding functions by names -/

/-- `N` are the names of the vertices `vs`. -/
def Spec.Vertices (isId : Str → Bool) (vs : List Ident) (N : Finset Str) : Prop :=
  (∀ v ∈ vs, ∃ n, v = .named n ∧ isId n = true) ∧ ∀ n, n ∈ N ↔ Ident.named n ∈ vs

theorem collate_fold (isId : Str → Bool) : ∀ (vs : List Ident) (acc : List Str),
    (∀ v ∈ vs, ∃ n, v = .named n ∧ isId n = true) →
    ∃ ns : List Str, vs.foldlM (fun acc v => match v with
      | .named s => if isId s then .ok (if s ∈ acc then acc else acc ++ [s]) else .error .assertion
      | .str _ => .error .assertion
      | .misnamed => .error .assertion
      | .bare => .error .assertion) acc = (.ok ns : Py (List Str)) ∧
      ∀ n, n ∈ ns ↔ n ∈ acc ∨ Ident.named n ∈ vs := by
  intro vs
  induction vs with
  | nil => intro acc _; exact ⟨acc, rfl, by simp⟩
  | cons v vs ih =>
      intro acc h
      obtain ⟨n, rfl, hn⟩ := h v (by simp)
      obtain ⟨ns, h1, h2⟩ := ih (if n ∈ acc then acc else acc ++ [n]) fun v hv => h v (by simp [hv])
      refine ⟨ns, ?_, ?_⟩
      · rw [List.foldlM_cons]
        simp only [hn, if_true, bind, Except.bind]
        exact h1
      · intro m
        rw [h2]
        by_cases hm : n ∈ acc
        · rw [if_pos hm]
          simp only [List.mem_cons, Ident.named.injEq]
          constructor
          · rintro (h | h)
            · exact .inl h
            · exact .inr (.inr h)
          · rintro (h | rfl | h)
            · exact .inl h
            · exact .inl hm
            · exact .inr h
        · rw [if_neg hm]
          simp only [List.mem_append, List.mem_cons, List.not_mem_nil, or_false, Ident.named.injEq]
          tauto

theorem collate_spec (isId : Str → Bool) (vs : List Ident) :
    (∀ N, Spec.Vertices isId vs N →
      ∃ ns, collateVertices isId vs = .ok ns ∧ ns.toFinset = N) ∧
    ((∃ v ∈ vs, ∀ n, v = .named n → isId n = false) →
      collateVertices isId vs = .error .assertion) := by
  constructor
  · rintro N ⟨h1, h2⟩
    obtain ⟨ns, h3, h4⟩ := collate_fold isId vs [] h1
    refine ⟨ns, h3, ?_⟩
    ext n
    rw [List.mem_toFinset, h4, h2]
    simp
  · intro h
    suffices ∀ acc : List Str, vs.foldlM (fun acc v => match v with
        | .named s => if isId s then .ok (if s ∈ acc then acc else acc ++ [s]) else .error .assertion
        | .str _ => .error .assertion
        | .misnamed => .error .assertion
        | .bare => .error .assertion) acc = (.error .assertion : Py (List Str)) from this []
    induction vs with
    | nil => simp at h
    | cons v vs ih =>
        intro acc
        rw [List.foldlM_cons]
        cases v with
        | named n =>
            by_cases hn : isId n = true
            · simp only [hn, if_true, bind, Except.bind]
              apply ih
              obtain ⟨w, hw, hw'⟩ := h
              rcases List.mem_cons.mp hw with rfl | hw
              · rw [hw' n rfl] at hn; cases hn
              · exact ⟨w, hw, hw'⟩
            · simp only [hn]; rfl
        | str n => rfl
        | misnamed => rfl
        | bare => rfl

/-- C75: a functional of two graphs has the names of their vertices as outputs and
inputs; without second graph those of the first are also the inputs. -/
theorem C75_new (isId : Str → Bool) (out inp : List Ident) (outs inps : Finset Str)
    (ho : Spec.Vertices isId out outs) (hi : Spec.Vertices isId inp inps) :
    FnState.new isId out [] = .ok (FnState.init outs outs) ∧
    (inp ≠ [] → FnState.new isId out inp = .ok (FnState.init outs inps)) := by
  obtain ⟨ns, h1, h2⟩ := (collate_spec isId out).1 outs ho
  obtain ⟨ms, h3, h4⟩ := (collate_spec isId inp).1 inps hi
  constructor
  · simp [FnState.new, h1, bind, Except.bind, h2, pure, Except.pure]
  · intro hne
    have : inp.isEmpty = false := by cases inp <;> simp_all
    simp [FnState.new, h1, h3, bind, Except.bind, h2, h4, pure, Except.pure, this]

example : Spec.Vertices (fun _ => true) [.named ['u'], .named ['v']] {['u'], ['v']} :=
  ⟨by simp, by simp⟩

/-- C75: vertices without identifier as name are refused. -/
theorem C75_new_refused (isId : Str → Bool) (out inp : List Ident)
    (h : (∃ v ∈ out, ∀ n, v = .named n → isId n = false) ∨
      ∃ v ∈ inp, ∀ n, v = .named n → isId n = false) :
    FnState.new isId out inp = .error .assertion := by
  rcases ho : collateVertices isId out with e | ns
  · have : e = .assertion := by
      by_cases hb : ∃ v ∈ out, ∀ n, v = .named n → isId n = false
      · rw [(collate_spec isId out).2 hb] at ho
        cases ho; rfl
      · exfalso
        push Not at hb
        obtain ⟨ns, h1, -⟩ := collate_fold isId out [] fun v hv => by
          obtain ⟨n, h1, h2⟩ := hb v hv
          exact ⟨n, h1, by simpa using h2⟩
        have h1' : collateVertices isId out = .ok ns := h1
        rw [h1'] at ho
        cases ho
    subst this
    simp [FnState.new, ho, bind, Except.bind]
  · rcases h with h | h
    · rw [(collate_spec isId out).2 h] at ho; cases ho
    · have hne : inp.isEmpty = false := by
        cases inp with
        | nil => simp at h
        | cons a l => rfl
      simp [FnState.new, ho, bind, Except.bind, hne, (collate_spec isId inp).2 h]

/-- C75: a function is added under the outputs and inputs named, whatever the form of
the names. -/
theorem C75_added (s : FnState) (expr : Py FuncObj) (hasArgs : Bool) :
    (∀ (ids : Idents) (o : Finset Str), Spec.Naming ids o →
      addNamed s (.outs ids) expr hasArgs = addFunc s ⟨o, none, expr, hasArgs⟩) ∧
    ∀ (kvs : List (Ident × Ident)) (o i : Finset Str), Spec.Naming (.many (kvs.map Prod.fst)) o →
      Spec.Naming (.many (kvs.map Prod.snd)) i →
      addNamed s (.dict kvs) expr hasArgs = addFunc s ⟨o, some i, expr, hasArgs⟩ := by
  constructor
  · intro ids o h
    simp [addNamed, FnNames.parse, C75_names h, bind, Except.bind, pure, Except.pure]
  · intro kvs o i ho hi
    simp [addNamed, FnNames.parse, C75_names ho, C75_names hi, bind, Except.bind, pure, Except.pure]

/-- C75: commas separate names only in a single string, not within keys or values of
a dictionary: no function can be added for a key or value with commas, since names
of vertices have none. -/
theorem C75_commas_in_dict_refused (s : FnState) (hs : s.funcs.keys = s.deps.keys)
    (houts : ∀ n ∈ s.outSet, ',' ∉ n) (hinps : ∀ n ∈ s.inpSet, ',' ∉ n)
    (kvs : List (Ident × Ident)) (n : Str) (hn : ',' ∈ n)
    (h : Ident.str n ∈ kvs.map Prod.fst ∨ Ident.str n ∈ kvs.map Prod.snd)
    (expr : Py FuncObj) (hasArgs : Bool) :
    ∃ e, (addNamed s (.dict kvs) expr hasArgs).2 = some e := by
  have hmem : ∀ (is : List Ident) (ns : List Str), is.mapM Ident.name = .ok ns →
      Ident.str n ∈ is → n ∈ ns := by
    intro is
    induction is with
    | nil => intro ns _ h; simp at h
    | cons i is ih =>
        intro ns hm hin
        rw [List.mapM_cons] at hm
        rcases hi : i.name with e | m
        · simp [hi, bind, Except.bind] at hm
        · rcases hr : is.mapM Ident.name with e | ms
          · simp [hi, hr, bind, Except.bind] at hm
          · simp only [hi, hr, bind, Except.bind, pure, Except.pure, Except.ok.injEq] at hm
            subst hm
            rcases List.mem_cons.mp hin with rfl | hin
            · simp [Ident.name] at hi
              simp [hi]
            · exact List.mem_cons_of_mem _ (ih ms hr hin)
  unfold addNamed
  rcases ho : (kvs.map Prod.fst).mapM Ident.name with e | ons
  · exact ⟨e, by simp [FnNames.parse, parseIdentifiers, ho, bind, Except.bind]⟩
  · rcases hi : (kvs.map Prod.snd).mapM Ident.name with e | ins
    · exact ⟨e, by simp [FnNames.parse, parseIdentifiers, ho, hi, bind, Except.bind, pure, Except.pure]⟩
    · have hp : FnNames.parse (.dict kvs) = .ok (ons.toFinset, some ins.toFinset) := by
        simp [FnNames.parse, parseIdentifiers, ho, hi, bind, Except.bind, pure, Except.pure]
      rw [hp]
      dsimp only
      rcases he : addFunc s ⟨ons.toFinset, some ins.toFinset, expr, hasArgs⟩ with ⟨s', e⟩
      cases e with
      | some e => exact ⟨e, rfl⟩
      | none =>
          exfalso
          obtain ⟨-, -, -, -, f, i, -, -, h1, h2, h3, -⟩ := C47_success s _ s' he hs
          rw [h3 _ rfl] at h2
          rcases h with h | h
          · exact houts n (h1 (List.mem_toFinset.mpr (hmem _ _ ho h))) hn
          · exact hinps n (h2 (List.mem_toFinset.mpr (hmem _ _ hi h))) hn

/-- Non-vacuity of `C75_commas_in_dict_refused`. -/
example : ∃ e, (addNamed (FnState.init {['u'], ['v']} {['x']})
    (.dict [(.str "u,v".toList, .str ['x'])]) (.ok fOne) false).2 = some e :=
  C75_commas_in_dict_refused _ rfl (by decide) (by decide) _ "u,v".toList (by decide)
    (.inl (by simp)) _ _

end Probayes
