/-
C76: the operators `&` and `|` compose variables, fields and dependences.
-/
import Verif.Model.Ops
import Verif.Props.Dependence

namespace Probayes

/-! ### Specification -/

/-- A variable or a field with variables `vs`, all random if `s`, none otherwise. -/
inductive Spec.VarsOf (info : ℕ → VarInfo) (s : Bool) : Operand → List ℕ → Prop
  | var (v : ℕ) (h : (info v).stoch = s) : Spec.VarsOf info s (.var v) [v]
  | field (vs : List ℕ) (hne : vs ≠ []) (hn : vs.Nodup) (h : ∀ v ∈ vs, (info v).stoch = s) :
      Spec.VarsOf info s (.field s vs) vs

/-- Variables with the same name are the same variable. -/
def Spec.DistinctNames (info : ℕ → VarInfo) : Prop := ∀ u v, (info u).name = (info v).name → u = v

/-- `d` is the dependence of all the variables `l` on all the variables `r`. -/
structure Spec.DependsOn (d : DepObj) (l r : List ℕ) : Prop where
  leafs : d.leafs = l
  roots : d.roots = some r
  stems : d.stems = []
  edges : ∀ u v, (u, v) ∈ d.edges ↔ u ∈ r ∧ v ∈ l
  nodes : ∀ v, v ∈ d.nodes ↔ v ∈ l ∨ v ∈ r
  classes : (∀ v ∈ l, v ∉ r) → Spec.Classified d

theorem Spec.VarsOf.ne {info : ℕ → VarInfo} {s : Bool} {a : Operand} {vs : List ℕ}
    (h : Spec.VarsOf info s a vs) : vs ≠ [] := by
  cases h with
  | var v h => simp
  | field _ hne hn h => exact hne

theorem Spec.VarsOf.nodup {info : ℕ → VarInfo} {s : Bool} {a : Operand} {vs : List ℕ}
    (h : Spec.VarsOf info s a vs) : vs.Nodup := by
  cases h with
  | var v h => simp
  | field _ hne hn h => exact hn

theorem Spec.VarsOf.kind {info : ℕ → VarInfo} {s : Bool} {a : Operand} {vs : List ℕ}
    (h : Spec.VarsOf info s a vs) : ∀ v ∈ vs, (info v).stoch = s := by
  cases h with
  | var v h => simpa using h
  | field _ hne hn h => exact h

theorem Spec.VarsOf.st {info : ℕ → VarInfo} {s : Bool} {a : Operand} {vs : List ℕ}
    (h : Spec.VarsOf info s a vs) : a.st info = some s := by
  cases h with
  | var v h => simp [Operand.st, h]
  | field _ hne hn h => rfl

theorem names_nodup {info : ℕ → VarInfo} (hinj : Spec.DistinctNames info) {vs : List ℕ}
    (h : vs.Nodup) : (vs.map fun v => (info v).name).Nodup :=
  h.map fun u v huv => hinj u v huv

/-! ### Fields -/

theorem fieldOf_append {info : ℕ → VarInfo} (hinj : Spec.DistinctNames info) (s : Bool)
    (a b : List ℕ) (ha : a.Nodup) (hb : b.Nodup) (hane : a ≠ []) (hbne : b ≠ [])
    (hk : ∀ v ∈ a ++ b, (info v).stoch = s) :
    newField info s (a ++ b) = .ok (a ++ b.filter (· ∉ a)) := by
  have hnd : (a ++ b.filter (· ∉ a)).Nodup := by
    rw [List.nodup_append]
    refine ⟨ha, hb.filter _, ?_⟩
    rintro x hx y hy rfl
    have := (List.mem_filter.mp hy).2
    exact (by simpa using this : x ∉ a) hx
  obtain ⟨f, hf, h1, h2, h3⟩ := C44_and_partial info s a b
    (fun v hv h => by rw [← hk v hv]; exact h) ha hb hane hbne (names_nodup hinj hnd)
  have hf' : mkField info s (a ++ b) = (f, none) := hf
  have hv : f.vars.vals = a ++ b.filter (· ∉ a) := by
    rw [h3]
    simp only [Dict.vals, List.map_map, Function.comp_def, List.map_id']
  simp only [newField, fieldOf, hf', hv]
  rw [if_neg]
  simp only [Bool.and_eq_true, List.any_eq_true, not_and, not_exists]
  intro hs x hx
  have hx' : x ∈ a ++ b := by
    rw [List.mem_append] at hx ⊢
    rcases hx with h | h
    · exact .inl h
    · exact .inr (List.mem_filter.mp h).1
  simp [hk x hx', hs]

theorem newField_ok {info : ℕ → VarInfo} (hinj : Spec.DistinctNames info) (s : Bool)
    (a : List ℕ) (ha : a.Nodup) (hane : a ≠ []) (hk : ∀ v ∈ a, (info v).stoch = s) :
    newField info s a = .ok a := by
  obtain ⟨f, hf, ⟨h1, h2, h3⟩, -⟩ := C44_build_partial info s a hane
    (fun v hv h => by rw [← hk v hv]; exact h) ha (names_nodup hinj ha)
  have hv : f.vars.vals = a := by
    rw [h3]
    simp only [Dict.vals, List.map_map, Function.comp_def, List.map_id']
  simp only [newField, fieldOf, hf, hv]
  rw [if_neg]
  simp only [Bool.and_eq_true, List.any_eq_true, not_and, not_exists]
  intro hs x hx
  simp [hk x hx, hs]

/-- C76: `a & b` of variables and fields is the field of the variables of `a` and
those of `b` not yet among them, in order; it is random if they are. -/
theorem C76_and_partial {info : ℕ → VarInfo} (hinj : Spec.DistinctNames info) {s : Bool}
    {a b : Operand} {vs ws : List ℕ} (ha : Spec.VarsOf info s a vs) (hb : Spec.VarsOf info s b ws) :
    opAnd info a b = .ok (.field s (vs ++ ws.filter (· ∉ vs))) := by
  have key := fieldOf_append hinj s vs ws ha.nodup hb.nodup ha.ne hb.ne (by
    intro v hv
    rcases List.mem_append.mp hv with h | h
    · exact ha.kind v h
    · exact hb.kind v h)
  have hres : fieldResult info s (vs ++ ws) = .ok (.field s (vs ++ ws.filter (· ∉ vs))) := by
    simp only [fieldResult, key, bind, Except.bind, pure, Except.pure]
  cases ha with
  | var v hv =>
      cases hb with
      | var w hw =>
          simp only [opAnd, rvAnd, andOperands, Operand.st, hv, hw]
          cases s
          · simpa using hres
          · simpa using hres
      | field _ hne hn hw =>
          simp only [opAnd, andOperands, Operand.st, hv]
          cases s
          · simpa using hres
          · simpa [rvAnd] using hres
  | field _ hne hn hv =>
      cases hb with
      | var w hw =>
          simp only [opAnd, andOperands, Operand.st, hw, Bool.or_self]
          exact hres
      | field _ hne' hn' hw =>
          simp only [opAnd, andOperands, Operand.st, Bool.or_self]
          exact hres

/-! ### Conditions -/

theorem asField_plain {info : ℕ → VarInfo} (hinj : Spec.DistinctNames info) {s : Bool}
    {a : Operand} {vs : List ℕ} (ha : Spec.VarsOf info s a vs) : asField info s a = .ok vs := by
  cases ha with
  | var v h =>
      have := newField_ok hinj s [v] (by simp) (by simp) (by simpa using h)
      simp [asField, h, this]
  | field _ hne hn h => simp [asField]

theorem Spec.VarsOf.not_dep {info : ℕ → VarInfo} {s t : Bool} {a : Operand} {vs : List ℕ}
    (h : Spec.VarsOf info s a vs) : a.isDep t = false := by
  cases h <;> rfl

theorem newDep_two {info : ℕ → VarInfo} (hinj : Spec.DistinctNames info) {s : Bool}
    {a b : Operand} {vs ws : List ℕ} (ha : Spec.VarsOf info s a vs) (hb : Spec.VarsOf info s b ws) :
    ∃ d, newDep info s [a, b] = .ok d ∧ Spec.DependsOn d vs ws := by
  have h : newDep info s [a, b] = depOfFields info s [vs, ws] := by
    simp [newDep, ha.not_dep, hb.not_dep, asField_plain hinj ha, asField_plain hinj hb, bind,
      Except.bind, pure, Except.pure]
  rw [h]
  refine ⟨_, rfl, rfl, rfl, rfl, ?_, ?_, ?_⟩
  · intro u v
    simp
  · intro v
    simp [mem_foldl_addNode]
  · intro hd
    exact C45_fields_partial info s [vs, ws] _ (by
      intro f hf
      simp only [List.mem_cons, List.not_mem_nil, or_false] at hf
      rcases hf with rfl | rfl
      · exact ha.ne
      · exact hb.ne) (by simpa using hd) rfl

/-- C76: `a | b` of variables and fields is the dependence of all variables of `a` on
all variables of `b`; it is random if they are. -/
theorem C76_or_partial {info : ℕ → VarInfo} (hinj : Spec.DistinctNames info) {s : Bool}
    {a b : Operand} {vs ws : List ℕ} (ha : Spec.VarsOf info s a vs) (hb : Spec.VarsOf info s b ws) :
    ∃ d, opOr info a b = .ok (.dep s d) ∧ Spec.DependsOn d vs ws := by
  obtain ⟨d, h1, h2⟩ := newDep_two hinj ha hb
  refine ⟨d, ?_, h2⟩
  have hor : orOperands info a b = .ok (.dep s d) := by
    have hsa := ha.st
    have hsb := hb.st
    cases ha <;> cases hb <;>
      simp_all [orOperands, bind, Except.bind, pure, Except.pure]
  cases ha with
  | var v hv =>
      cases s
      · simp only [opOr, hv]; exact hor
      · simp only [opOr, hv, if_true, h1, bind, Except.bind, pure, Except.pure]
  | field _ hne hn hv => exact hor

/-- C76: names: `a & b` is named as `a,b` and `a | b` as `a|b`. -/
theorem C76_names {info : ℕ → VarInfo} (hinj : Spec.DistinctNames info) {s : Bool}
    {a b : Operand} {vs ws : List ℕ} (ha : Spec.VarsOf info s a vs) (hb : Spec.VarsOf info s b ws)
    (hd : ∀ v ∈ vs, v ∉ ws) :
    (∃ c, opAnd info a b = .ok c ∧ c.name info = a.name info ++ [','] ++ b.name info) ∧
    ∃ c, opOr info a b = .ok c ∧ c.name info = a.name info ++ ['|'] ++ b.name info := by
  have hname : ∀ {a : Operand} {vs : List ℕ}, Spec.VarsOf info s a vs →
      a.name info = varsName info vs := by
    intro a vs h
    cases h with
    | var v h => simp [Operand.name, varsName, List.intercalate]
    | field _ hne hn h => rfl
  have happ : ∀ (vs ws : List ℕ), vs ≠ [] → ws ≠ [] →
      varsName info (vs ++ ws) = varsName info vs ++ [','] ++ varsName info ws := by
    intro vs ws h1 h2
    induction vs with
    | nil => exact absurd rfl h1
    | cons v vs ih =>
        rcases vs with _ | ⟨u, vs⟩
        · obtain ⟨w, ws, rfl⟩ := List.exists_cons_of_ne_nil h2
          simp [varsName, List.intercalate]
        · have := ih (by simp)
          simp only [varsName, List.cons_append, List.map_cons, List.intercalate,
            List.intersperse_cons₂, List.flatten_cons] at this ⊢
          rw [this]
          simp
  have hf : ws.filter (· ∉ vs) = ws := by
    rw [List.filter_eq_self]
    intro w hw
    simp only [decide_eq_true_eq]
    exact fun h => hd w h hw
  constructor
  · refine ⟨_, C76_and_partial hinj ha hb, ?_⟩
    rw [hf, hname ha, hname hb]
    exact happ vs ws ha.ne hb.ne
  · obtain ⟨d, h1, h2⟩ := C76_or_partial hinj ha hb
    refine ⟨_, h1, ?_⟩
    obtain ⟨w, ws', rfl⟩ := List.exists_cons_of_ne_nil hb.ne
    rw [hname ha, hname hb]
    simp [Operand.name, h2.roots, h2.leafs]

example : Spec.DistinctNames (fun v => ⟨List.replicate v 'x', true⟩) ∧
    Spec.VarsOf (fun v => ⟨List.replicate v 'x', true⟩) true (.var 1) [1] ∧
    Spec.VarsOf (fun v => ⟨List.replicate v 'x', true⟩) true (.field true [3, 2]) [3, 2] := by
  refine ⟨fun u v h => ?_, .var 1 rfl, .field _ (by simp) (by decide) (by simp)⟩
  simpa using congrArg List.length h

/-! ### Fields and dependences -/

/-- C76: a field and a dependence without stems unite to the dependence of the variables
of the field and the leafs on the same roots. -/
theorem C76_field_dep_partial {info : ℕ → VarInfo} (hinj : Spec.DistinctNames info) {s : Bool}
    {vs : List ℕ} (ha : Spec.VarsOf info s (.field s vs) vs) {d : DepObj} {r : List ℕ}
    (hl : Spec.VarsOf info s (.field s d.leafs) d.leafs)
    (hroots : d.roots = some r) (hr : Spec.VarsOf info s (.field s r) r) (hstems : d.stems = []) :
    ∃ e, opAnd info (.field s vs) (.dep s d) = .ok (.dep s e) ∧
      Spec.DependsOn e (vs ++ d.leafs.filter (· ∉ vs)) r := by
  have hk : ∀ v ∈ vs ++ d.leafs, (info v).stoch = s := by
    intro v hv
    rcases List.mem_append.mp hv with h | h
    · exact ha.kind v h
    · exact hl.kind v h
  have hf := fieldOf_append hinj s vs d.leafs ha.nodup hl.nodup ha.ne hl.ne hk
  have hp : Spec.VarsOf info s (.field s (vs ++ d.leafs.filter (· ∉ vs)))
      (vs ++ d.leafs.filter (· ∉ vs)) := by
    refine .field _ ?_ ?_ ?_
    · simp [ha.ne]
    · rw [List.nodup_append]
      refine ⟨ha.nodup, hl.nodup.filter _, ?_⟩
      rintro x hx y hy rfl
      have := (List.mem_filter.mp hy).2
      exact (by simpa using this : x ∉ vs) hx
    · intro v hv
      apply hk
      rw [List.mem_append] at hv ⊢
      rcases hv with h | h
      · exact .inl h
      · exact .inr (List.mem_filter.mp h).1
  obtain ⟨e, he, hd⟩ := newDep_two hinj hp hr
  refine ⟨e, ?_, hd⟩
  obtain ⟨w, ws, rfl⟩ := List.exists_cons_of_ne_nil hr.ne
  have hargs : d.stemArgs ++ d.rootArgs s = [.field s (w :: ws)] := by
    simp [DepObj.stemArgs, DepObj.rootArgs, hstems, hroots, Dict.vals]
  simp only [opAnd, andOperands, Operand.st, Bool.or_self, fieldAndDep, hf, hargs, he, bind,
    Except.bind, pure, Except.pure]

theorem mapM_ok_length {α β : Type} (f : α → Py β) : ∀ (l : List α) (r : List β),
    l.mapM f = .ok r → r.length = l.length
  | [], r, h => by
      simp [pure, Except.pure] at h
      simp [← h]
  | a :: l, r, h => by
      rw [List.mapM_cons] at h
      rcases hf : f a with e | b
      · simp [hf, bind, Except.bind] at h
      · rcases hm : l.mapM f with e | bs
        · simp [hf, hm, bind, Except.bind] at h
        · simp [hf, hm, bind, Except.bind, pure, Except.pure] at h
          simp [← h, mapM_ok_length f l bs hm]

theorem newDep_many_raises (info : ℕ → VarInfo) (s : Bool) (args : List Operand)
    (hlen : 3 ≤ args.length) (hnd : ∀ a ∈ args, a.isDep s = false) :
    Raises (newDep info s args) := by
  have hany : args.any (Operand.isDep s) = false := by
    rw [List.any_eq_false]
    intro a ha
    simp [hnd a ha]
  unfold newDep
  rw [hany]
  rcases hm : args.mapM (asField info s) with e | fs
  · exact ⟨e, by simp [bind, Except.bind]⟩
  · have hl := mapM_ok_length _ _ _ hm
    rcases fs with _ | ⟨a, _ | ⟨b, _ | ⟨c, fs⟩⟩⟩ <;> simp at hl <;> try omega
    exact ⟨.assertion, by simp [bind, Except.bind, depOfFields]⟩

/-- C76: a field and a dependence with stems and roots cannot be united. -/
theorem C76_field_stems_refused (info : ℕ → VarInfo) (sa sd : Bool) (vs : List ℕ) (d : DepObj)
    (r : List ℕ) (hroots : d.roots = some r) (hr : r ≠ []) (hstems : d.stems ≠ []) :
    Raises (opAnd info (.field sa vs) (.dep sd d)) := by
  simp only [opAnd, andOperands, Operand.st, fieldAndDep]
  rcases hf : newField info (sa || sd) (vs ++ d.leafs) with e | f
  · exact ⟨e, by simp [bind, Except.bind]⟩
  · obtain ⟨e, he⟩ := newDep_many_raises info (sa || sd)
      (.field (sa || sd) f :: (d.stemArgs ++ d.rootArgs sd)) (by
        obtain ⟨w, ws, rfl⟩ := List.exists_cons_of_ne_nil hr
        obtain ⟨x, xs, hx⟩ := List.exists_cons_of_ne_nil hstems
        simp [DepObj.stemArgs, DepObj.rootArgs, hroots, hx, Dict.vals]) (by
        obtain ⟨w, ws, rfl⟩ := List.exists_cons_of_ne_nil hr
        intro a ha
        simp only [DepObj.stemArgs, DepObj.rootArgs, hroots, List.mem_cons, List.mem_append,
          List.mem_map, List.not_mem_nil, or_false] at ha
        rcases ha with rfl | ⟨x, -, rfl⟩ | rfl <;> rfl)
    exact ⟨e, by simp [he, bind, Except.bind]⟩

theorem varAndDep_raises (info : ℕ → VarInfo) (s : Bool) (v : ℕ) (d : DepObj)
    (h : d.stems ≠ [] ∨ d.roots.getD [] ≠ []) : Raises (varAndDep info s v d) := by
  unfold varAndDep
  rcases hf : newField info s (v :: d.leafs) with e | f
  · exact ⟨e, by simp [bind, Except.bind]⟩
  · simp only [bind, Except.bind]
    rcases hs : d.stems with _ | ⟨x, xs⟩
    · simp only [hs, ne_eq, not_true_eq_false, false_or] at h
      rcases hr : d.roots with _ | (_ | ⟨w, ws⟩)
      · simp [hr] at h
      · simp [hr] at h
      · exact ⟨.attribute, by simp [DepObj.rootArgs, hr]⟩
    · exact ⟨.type, by simp⟩

/-- C76: a variable and a dependence with conditions cannot be united. -/
theorem C76_var_dep_refused (info : ℕ → VarInfo) (v : ℕ) (s : Bool) (d : DepObj)
    (h : d.stems ≠ [] ∨ d.roots.getD [] ≠ []) : Raises (opAnd info (.var v) (.dep s d)) := by
  simp only [opAnd]
  split
  · cases s
    · exact ⟨.type, rfl⟩
    · exact varAndDep_raises info true v d h
  · exact varAndDep_raises info _ v d h

/-- The claim for variables and dependences: `x & d` adds `x` to the leafs of `d`. -/
def C76_claim : Prop :=
  ∀ (info : ℕ → VarInfo) (s : Bool) (v : ℕ) (d : DepObj), Spec.DistinctNames info →
    Spec.Classified d → v ∉ d.nodes → (∀ u ∈ v :: d.nodes, (info u).stoch = s) →
    d.leafs ≠ [] → d.leafs.Nodup →
    ∃ e, opAnd info (.var v) (.dep s d) = .ok (.dep s e) ∧ e.leafs = v :: d.leafs ∧
      e.roots = d.roots

/-- Infinitely many random variables `x`, `xx`, ... -/
def sampleInfo (v : ℕ) : VarInfo := ⟨List.replicate v 'x', true⟩

theorem sampleInfo_distinct : Spec.DistinctNames sampleInfo := fun u v h => by
  simpa [sampleInfo] using congrArg List.length h

theorem C76_claim_fails : ¬ C76_claim := by
  intro h
  obtain ⟨d, h1, h2⟩ := C76_or_partial (a := .var 2) (b := .var 3) sampleInfo_distinct
    (s := true) (.var 2 rfl) (.var 3 rfl)
  have hc := h2.classes (by simp)
  obtain ⟨e, he, -⟩ := h sampleInfo true 1 d sampleInfo_distinct hc (by rw [h2.nodes]; simp)
    (fun _ _ => rfl) (by simp [h2.leafs]) (by simp [h2.leafs])
  obtain ⟨x, hx⟩ := C76_var_dep_refused sampleInfo 1 true d (.inr (by simp [h2.roots]))
  rw [hx] at he
  exact absurd he (by simp)

/-- C76: uniting a variable with a dependence of one variable on nothing makes the former
conditional on the latter. -/
theorem C76_var_leaf_conditions {info : ℕ → VarInfo} (hinj : Spec.DistinctNames info) (s : Bool)
    (v w : ℕ) (hvw : v ≠ w) (hv : (info v).stoch = s) (hw : (info w).stoch = s) (d : DepObj)
    (hl : d.leafs = [w]) (hroots : d.roots = none) (hstems : d.stems = []) :
    ∃ e, opAnd info (.var v) (.dep s d) = .ok (.dep s e) ∧ Spec.DependsOn e [v] [w] := by
  obtain ⟨e, he, hd⟩ := newDep_two hinj (s := s) (.var v hv) (.var w hw)
  refine ⟨e, ?_, hd⟩
  have hf := newField_ok hinj s [v, w] (by simp [hvw]) (by simp) (by simp [hv, hw])
  have hvd : varAndDep info s v d = .ok (.dep s e) := by
    simp [varAndDep, hl, hf, hstems, DepObj.rootArgs, hroots, he, bind, Except.bind, pure,
      Except.pure]
  cases s
  · simpa [opAnd, andOperands, Operand.st, hv] using hvd
  · simpa [opAnd, rvAnd, hv] using hvd

/-- C76: a variable and a dependence of two or more variables on nothing cannot be
united. -/
theorem C76_var_leafs_refused {info : ℕ → VarInfo} (hinj : Spec.DistinctNames info) (s : Bool)
    (v : ℕ) (d : DepObj) (hv : (info v).stoch = s) (hl : Spec.VarsOf info s (.field s d.leafs) d.leafs)
    (hvl : v ∉ d.leafs) (hlen : 2 ≤ d.leafs.length) :
    Raises (opAnd info (.var v) (.dep s d)) := by
  have hvd : Raises (varAndDep info s v d) := by
    by_cases hc : d.stems ≠ [] ∨ d.roots.getD [] ≠ []
    · exact varAndDep_raises info s v d hc
    · simp only [ne_eq, not_or, not_not] at hc
      have hf := newField_ok hinj s (v :: d.leafs) (by simp [hvl, hl.nodup]) (by simp) (by
        intro u hu
        rcases List.mem_cons.mp hu with rfl | h
        · exact hv
        · exact hl.kind u h)
      obtain ⟨e, he⟩ := newDep_many_raises info s ((v :: d.leafs).map Operand.var) (by
        simp; omega) (by
        intro a ha
        obtain ⟨x, -, rfl⟩ := List.mem_map.mp ha
        rfl)
      have hra : d.rootArgs s = [] := by
        unfold DepObj.rootArgs
        rcases hr : d.roots with _ | (_ | ⟨w, ws⟩)
        · rfl
        · rfl
        · simp [hr] at hc
      refine ⟨e, ?_⟩
      simp only [varAndDep, hf, hc.1, hra, he, bind, Except.bind, List.isEmpty_nil, Bool.not_true,
        Bool.false_eq_true, if_false]
  cases s
  · simpa [opAnd, andOperands, Operand.st, hv] using hvd
  · simpa [opAnd, rvAnd, hv] using hvd

/-! ### Dependences first -/

theorem newDep_mixed (info : ℕ → VarInfo) (s : Bool) (a b : Operand)
    (h : a.isDep s ≠ b.isDep s) : Raises (newDep info s [a, b]) := by
  have hno : ∀ x : Operand, x.isDep s = false → ∃ e, asDep s x = .error e := by
    intro x hx
    cases x with
    | dep t d => simp only [Operand.isDep] at hx; exact ⟨.assertion, by simp [asDep, hx]⟩
    | var v => exact ⟨_, rfl⟩
    | field t vs => exact ⟨_, rfl⟩
    | other => exact ⟨_, rfl⟩
  have hyes : ∀ x : Operand, x.isDep s = true → ∃ d, asDep s x = .ok d := by
    intro x hx
    cases x with
    | dep t d => simp only [Operand.isDep] at hx; exact ⟨d, by simp [asDep, hx]⟩
    | _ => simp [Operand.isDep] at hx
  cases ha : a.isDep s <;> cases hb : b.isDep s
  · exact absurd (ha.trans hb.symm) h
  · obtain ⟨e, he⟩ := hno a ha
    exact ⟨e, by simp [newDep, hb, he, bind, Except.bind]⟩
  · obtain ⟨e, he⟩ := hno b hb
    obtain ⟨d, hd⟩ := hyes a ha
    exact ⟨e, by simp [newDep, ha, hd, he, bind, Except.bind]⟩
  · exact absurd (ha.trans hb.symm) h

theorem newDep_notRandom (info : ℕ → VarInfo) (a b : Operand)
    (h : (∃ d, a = .dep false d) ∨ ∃ d, b = .dep false d) :
    Raises (newDep info true [a, b]) := by
  by_cases hm : a.isDep true = b.isDep true
  · have hab : a.isDep true = false ∧ b.isDep true = false := by
      rcases h with ⟨d, rfl⟩ | ⟨d, rfl⟩
      · exact ⟨rfl, hm ▸ rfl⟩
      · exact ⟨hm.trans rfl, rfl⟩
    rcases h with ⟨d, rfl⟩ | ⟨d, rfl⟩
    · exact ⟨.type, by simp [newDep, hab, asField, bind, Except.bind]⟩
    · rcases hf : asField info true a with e | f
      · exact ⟨e, by simp [newDep, hab, hf, bind, Except.bind]⟩
      · have hg : asField info true (.dep false d) = .error .type := rfl
        exact ⟨.type, by simp [newDep, hab, hf, hg, bind, Except.bind]⟩
  · exact newDep_mixed info true a b hm

/-- C76: a dependence cannot be united with a variable or a field after it. -/
theorem C76_dep_first_refused (info : ℕ → VarInfo) (s : Bool) (d : DepObj) (b : Operand)
    (hb : ∀ t e, b ≠ .dep t e) : Raises (opAnd info (.dep s d) b) := by
  have hbd : ∀ t, b.isDep t = false := by
    intro t
    cases b with
    | dep t e => exact absurd rfl (hb t e)
    | _ => rfl
  have hst : (Operand.dep s d).st info = some s := rfl
  simp only [opAnd, andOperands, hst]
  cases hs : b.st info with
  | none => exact ⟨_, rfl⟩
  | some t =>
      have hr : Raises (newDep info (s || t) [b, .dep s d]) := by
        cases s with
        | true =>
            apply newDep_mixed
            simp [hbd, Operand.isDep]
        | false =>
            cases t with
            | false => apply newDep_mixed; simp [hbd, Operand.isDep]
            | true => exact newDep_notRandom info _ _ (.inr ⟨d, rfl⟩)
      obtain ⟨e, he⟩ := hr
      exact ⟨e, by simp [he, bind, Except.bind]⟩

/-- C76: nothing is conditioned on a dependence, nor a dependence on anything that is not
one. -/
theorem C76_or_dep_refused (info : ℕ → VarInfo) (s : Bool) (d : DepObj) (b : Operand)
    (hb : ∀ t e, b ≠ .dep t e) :
    Raises (opOr info (.dep s d) b) ∧ Raises (opOr info b (.dep s d)) := by
  have hbd : ∀ t, b.isDep t = false := by
    intro t
    cases b with
    | dep t e => exact absurd rfl (hb t e)
    | _ => rfl
  have hr : ∀ t, Raises (newDep info (s || t) [b, .dep s d]) ∧
      Raises (newDep info (t || s) [b, .dep s d]) ∧
      Raises (newDep info (s || t) [.dep s d, b]) := by
    intro t
    rw [Bool.or_comm t s]
    cases s with
    | true =>
        refine ⟨?_, ?_, ?_⟩ <;> apply newDep_mixed <;> simp [hbd, Operand.isDep]
    | false =>
        cases t with
        | false => refine ⟨?_, ?_, ?_⟩ <;> apply newDep_mixed <;> simp [hbd, Operand.isDep]
        | true =>
            exact ⟨newDep_notRandom info _ _ (.inr ⟨d, rfl⟩),
              newDep_notRandom info _ _ (.inr ⟨d, rfl⟩), newDep_notRandom info _ _ (.inl ⟨d, rfl⟩)⟩
  constructor
  · cases b with
    | dep t e => exact absurd rfl (hb t e)
    | other => exact ⟨_, rfl⟩
    | var v =>
        obtain ⟨-, -, e, he⟩ := hr (info v).stoch
        exact ⟨e, by simp [opOr, orOperands, Operand.st, he, bind, Except.bind]⟩
    | field t vs =>
        obtain ⟨-, -, e, he⟩ := hr t
        exact ⟨e, by simp [opOr, orOperands, Operand.st, he, bind, Except.bind]⟩
  · cases b with
    | dep t e => exact absurd rfl (hb t e)
    | other => exact ⟨_, rfl⟩
    | var v =>
        obtain ⟨-, ⟨e, he⟩, -⟩ := hr (info v).stoch
        cases hv : (info v).stoch
        · rw [hv, Bool.false_or] at he
          exact ⟨e, by simp [opOr, hv, orOperands, Operand.st, he, bind, Except.bind]⟩
        · rw [hv] at he
          exact ⟨e, by simpa [opOr, hv, bind, Except.bind] using by rw [Bool.true_or] at he; simp [he]⟩
    | field t vs =>
        obtain ⟨-, ⟨e, he⟩, -⟩ := hr t
        exact ⟨e, by simp [opOr, orOperands, Operand.st, he, bind, Except.bind]⟩

/-- C76: dependences are not conditioned on each other. -/
theorem C76_or_deps_refused (info : ℕ → VarInfo) (s t : Bool) (d e : DepObj)
    (hd : d.roots ≠ some []) (he : e.roots ≠ some []) :
    Raises (opOr info (.dep s d) (.dep t e)) := by
  simp only [opOr, orOperands, Operand.st]
  by_cases h : ((d.roots.getD []).isEmpty || (e.roots.getD []).isEmpty) = true
  · rw [if_pos h]
    have hr : Raises (newDep info (s || t) [.dep s d, .dep t e]) := by
      have hnone : d.roots = none ∨ e.roots = none := by
        rcases Bool.or_eq_true_iff.mp h with h | h
        · rcases hr : d.roots with _ | (_ | ⟨w, ws⟩)
          · exact .inl rfl
          · exact absurd hr hd
          · simp [hr] at h
        · rcases hr : e.roots with _ | (_ | ⟨w, ws⟩)
          · exact .inr rfl
          · exact absurd hr he
          · simp [hr] at h
      have hdeps : Raises (depOfDeps info (s || t) [d, e]) := by
        refine ⟨.attribute, ?_⟩
        unfold depOfDeps
        rcases hnone with h | h
        · simp [runLeafsRoots, h, bind, Except.bind]
        · cases hr : d.roots <;> simp [runLeafsRoots, h, hr, bind, Except.bind]
      obtain ⟨x, hx⟩ := hdeps
      cases s <;> cases t
      · exact ⟨x, by simpa [newDep, Operand.isDep, asDep, bind, Except.bind, pure, Except.pure] using hx⟩
      · exact newDep_notRandom info _ _ (.inl ⟨d, rfl⟩)
      · exact newDep_notRandom info _ _ (.inr ⟨e, rfl⟩)
      · exact ⟨x, by simpa [newDep, Operand.isDep, asDep, bind, Except.bind, pure, Except.pure] using hx⟩
    obtain ⟨x, hx⟩ := hr
    exact ⟨x, by simp [hx, bind, Except.bind]⟩
  · rw [if_neg h]
    exact ⟨_, rfl⟩

theorem depOfDeps_graph (info : ℕ → VarInfo) (s : Bool) (ds : List DepObj) (e : DepObj)
    (h : depOfDeps info s ds = .ok e) : e.nodes = depNodes ds ∧ e.edges = depEdges ds := by
  have hg : ∀ l r, depRefreshGiven info s (depNodes ds) (depEdges ds) l r = .ok e →
      e.nodes = depNodes ds ∧ e.edges = depEdges ds := by
    intro l r hh
    unfold depRefreshGiven at hh
    split at hh
    · cases hh; exact ⟨rfl, rfl⟩
    · simp at hh
  unfold depOfDeps at h
  split at h
  · simp at h
  · split at h
    · split at h
      · exact hg _ _ h
      · simp at h
    · split at h
      · split at h
        · exact hg _ _ h
        · simp at h
        · simp at h
      · unfold depRefresh at h
        split at h
        · simp at h
        · split at h
          · simp at h
          · split at h
            · simp at h
            · cases h; exact ⟨rfl, rfl⟩

/-- C76: `d & e` of dependences has the variables and the conditions of both, and their
variables are classified unless the roots of `e` are the leafs of `d`. -/
theorem C76_and_deps_partial {info : ℕ → VarInfo} (hinj : Spec.DistinctNames info) (s : Bool)
    (d e : DepObj) (hcl : ∀ c ∈ [d, e], Spec.Classified c ∧ c.stems = [] ∧ c.leafs ≠ [])
    (c : Operand) (h : opAnd info (.dep s d) (.dep s e) = .ok c) :
    ∃ x, c = .dep s x ∧ (∀ v, v ∈ x.nodes ↔ v ∈ d.nodes ∨ v ∈ e.nodes) ∧
      (∀ u v, (u, v) ∈ x.edges ↔ (u, v) ∈ d.edges ∨ (u, v) ∈ e.edges) ∧
      ((¬ ∀ v, v ∈ e.roots.getD [] ↔ v ∈ d.leafs) → Spec.Classified x) := by
  have hred : opAnd info (.dep s d) (.dep s e) =
      (match depOfDeps info s [e, d] with | .ok x => .ok (.dep s x) | .error y => .error y) := by
    cases s <;> simp [opAnd, andOperands, Operand.st, newDep, Operand.isDep, asDep, bind,
      Except.bind, pure, Except.pure] <;> split <;> simp_all
  rw [hred] at h
  rcases hx : depOfDeps info s [e, d] with y | x
  · simp [hx] at h
  · simp only [hx, Except.ok.injEq] at h
    subst h
    obtain ⟨h1, h2⟩ := depOfDeps_graph info s _ _ hx
    have hlv : ∀ c ∈ [d, e], ∀ v ∈ c.leafs, v ∈ c.nodes := fun c hc v hv =>
      (((hcl c hc).1.leafs v).mp hv).1
    refine ⟨x, rfl, ?_, ?_, ?_⟩
    · intro v
      rw [h1]
      simp only [depNodes, mem_foldl_addNode, List.flatMap_cons, List.flatMap_nil, List.append_nil,
        List.mem_append, List.not_mem_nil, false_or]
      have a1 := hlv d (by simp) v
      have a2 := hlv e (by simp) v
      tauto
    · intro u v
      rw [h2]
      simp [depEdges]
    · intro hns
      refine C45_deps_partial info s hinj [e, d] x (fun c hc => hcl c (by simp at hc ⊢; tauto))
        (.inl fun hser => hns ?_) hx
      exact hser 0 e d rfl rfl

/-- C76: dependences of which the second's roots are the first's leafs combine to the
dependence of the second's leafs on the first's roots, through all conditions of both. -/
theorem C76_and_series (info : ℕ → VarInfo) (s : Bool) (d e : DepObj) (hd : d.roots ≠ none)
    (he : e.roots ≠ none) (hser : ∀ v, v ∈ e.roots.getD [] ↔ v ∈ d.leafs) :
    ∃ x, opAnd info (.dep s d) (.dep s e) = .ok (.dep s x) ∧ x.leafs = e.leafs ∧
      x.roots = d.roots ∧ (∀ u v, (u, v) ∈ x.edges ↔ (u, v) ∈ d.edges ∨ (u, v) ∈ e.edges) := by
  obtain ⟨x, hx, h1, h2, -, h4⟩ := C45_series_partial info s e d [] (by
    intro c hc
    simp only [List.mem_cons, List.not_mem_nil, or_false] at hc
    rcases hc with rfl | rfl <;> assumption) (by
    intro i a b ha hb
    rcases i with _ | i
    · obtain rfl : e = a := by simpa using ha
      obtain rfl : d = b := by simpa using hb
      exact hser
    · simp at hb)
  refine ⟨x, ?_, h1, h2, ?_⟩
  · cases s <;> simp [opAnd, andOperands, Operand.st, newDep, Operand.isDep, asDep, hx, bind,
      Except.bind, pure, Except.pure]
  · intro u v
    rw [h4]
    simp
    tauto

/-! ### Refusals -/

/-- Variables of an operand that say whether it is random. -/
inductive Spec.Member : Operand → ℕ → Prop
  | var (v : ℕ) : Spec.Member (.var v) v
  | field (s : Bool) (vs : List ℕ) (v : ℕ) : v ∈ vs → Spec.Member (.field s vs) v
  | leaf (s : Bool) (d : DepObj) (v : ℕ) : v ∈ d.leafs → Spec.Member (.dep s d) v

/-- C76: objects that are not variables, fields or dependences are refused. -/
theorem C76_other_refused (info : ℕ → VarInfo) (a : Operand) :
    Raises (opAnd info a .other) ∧ Raises (opAnd info .other a) ∧ Raises (opOr info a .other) ∧
      Raises (opOr info .other a) := by
  refine ⟨?_, ⟨_, rfl⟩, ?_, ⟨_, rfl⟩⟩
  · cases a with
    | var v =>
        simp only [opAnd]
        split <;> exact ⟨_, rfl⟩
    | _ => exact ⟨_, rfl⟩
  · cases a with
    | var v =>
        simp only [opOr]
        split
        · rcases hf : asField info true (.var v) with e | f
          · exact ⟨e, by simp [newDep, Operand.isDep, hf, bind, Except.bind]⟩
          · have hg : asField info true .other = .error .type := rfl
            exact ⟨.type, by simp [newDep, Operand.isDep, hf, hg, bind, Except.bind]⟩
        · exact ⟨_, rfl⟩
    | _ => exact ⟨_, rfl⟩

theorem newField_random_raises {info : ℕ → VarInfo} (hinj : Spec.DistinctNames info)
    (vs : List ℕ) (v : ℕ) (hv : v ∈ vs) (hs : (info v).stoch = false) :
    Raises (newField info true vs) := by
  unfold newField
  rcases hf : fieldOf info true vs with e | r
  · exact ⟨e, rfl⟩
  · have hm := (fieldOf_mem info true hinj vs r hf v).mpr hv
    refine ⟨.attribute, ?_⟩
    have : (r.any fun v => !(info v).stoch) = true := List.any_eq_true.mpr ⟨v, hm, by simp [hs]⟩
    simp [this]

/-- C76: one operand random and the other not, each by all of its variables, is refused. -/
theorem C76_mixed_refused {info : ℕ → VarInfo} (hinj : Spec.DistinctNames info) (a b : Operand)
    (s : Bool) (ha : a.st info = some s) (hb : b.st info = some (!s))
    (hka : ∀ v, Spec.Member a v → (info v).stoch = s)
    (hkb : ∀ v, Spec.Member b v → (info v).stoch = !s)
    (hae : ∃ v, Spec.Member a v) (hbe : ∃ v, Spec.Member b v) :
    Raises (opAnd info a b) ∧ Raises (opOr info a b) := by
  have hor : (s || !s) = true := by cases s <;> rfl
  -- a list with all members of both contains a variable that is not random
  have hmem : ∀ vs : List ℕ, (∀ v, Spec.Member a v → v ∈ vs) → (∀ v, Spec.Member b v → v ∈ vs) →
      Raises (newField info true vs) := by
    intro vs h1 h2
    obtain ⟨v, hv⟩ := hae
    obtain ⟨w, hw⟩ := hbe
    cases s with
    | false => exact newField_random_raises hinj vs v (h1 v hv) (hka v hv)
    | true => exact newField_random_raises hinj vs w (h2 w hw) (hkb w hw)
  -- each non-random argument is refused by a random dependence
  have hasf : ∀ c : Operand, c.st info = some false → asField info true c = .error .type := by
    intro c hc
    cases c with
    | var v => simp [Operand.st] at hc; simp [asField, hc]
    | field t vs => simp [Operand.st] at hc; simp [asField, hc]
    | dep t d => rfl
    | other => rfl
  have hisd : ∀ c : Operand, c.st info = some false → c.isDep true = false := by
    intro c hc
    cases c with
    | dep t d => simp [Operand.st] at hc; simp [Operand.isDep, hc]
    | _ => rfl
  have hnew : ∀ c e : Operand, c.st info = some false ∨ e.st info = some false →
      Raises (newDep info true [c, e]) := by
    intro c e hce
    by_cases hm : c.isDep true = e.isDep true
    · have hce' : c.isDep true = false ∧ e.isDep true = false := by
        rcases hce with h | h
        · exact ⟨hisd c h, hm ▸ hisd c h⟩
        · exact ⟨hm.trans (hisd e h), hisd e h⟩
      rcases hf : asField info true c with x | f
      · exact ⟨x, by simp [newDep, hce', hf, bind, Except.bind]⟩
      · rcases hce with h | h
        · rw [hasf c h] at hf; simp at hf
        · exact ⟨.type, by simp [newDep, hce', hf, hasf e h, bind, Except.bind]⟩
    · exact newDep_mixed info true c e hm
  have hone : a.st info = some false ∨ b.st info = some false := by
    cases s
    · exact .inl ha
    · exact .inr hb
  have hfr : ∀ vs : List ℕ, (∀ v, Spec.Member a v → v ∈ vs) → (∀ v, Spec.Member b v → v ∈ vs) →
      Raises (fieldResult info true vs) := by
    intro vs h1 h2
    obtain ⟨e, he⟩ := hmem vs h1 h2
    exact ⟨e, by simp [fieldResult, he, bind, Except.bind]⟩
  have hand : Raises (andOperands info a b) := by
    simp only [andOperands, ha, hb, hor]
    cases a with
    | other => simp [Operand.st] at ha
    | dep t d =>
        obtain ⟨e, he⟩ := hnew b (.dep t d) hone.symm
        exact ⟨e, by simp [he, bind, Except.bind]⟩
    | field t vs =>
        cases b with
        | other => simp [Operand.st] at hb
        | dep u d =>
            obtain ⟨e, he⟩ := hmem (vs ++ d.leafs) (by rintro v ⟨⟩; simp_all)
              (by rintro v ⟨⟩; simp_all)
            exact ⟨e, by simp [fieldAndDep, he, bind, Except.bind]⟩
        | field u ws => exact hfr _ (by rintro v ⟨⟩; simp_all) (by rintro v ⟨⟩; simp_all)
        | var w => exact hfr _ (by rintro v ⟨⟩; simp_all) (by rintro v ⟨⟩; simp_all)
    | var v =>
        cases b with
        | other => simp [Operand.st] at hb
        | dep u d =>
            obtain ⟨e, he⟩ := hmem (v :: d.leafs) (by rintro v ⟨⟩; simp_all)
              (by rintro v ⟨⟩; simp_all)
            exact ⟨e, by simp [varAndDep, he, bind, Except.bind]⟩
        | field u ws => exact hfr _ (by rintro v ⟨⟩; simp_all) (by rintro v ⟨⟩; simp_all)
        | var w => exact hfr _ (by rintro v ⟨⟩; simp_all) (by rintro v ⟨⟩; simp_all)
  have hoo : Raises (orOperands info a b) := by
    obtain ⟨e, he⟩ := hnew a b hone
    simp only [orOperands, ha, hb, hor]
    split
    · split
      · exact ⟨e, by simp [he, bind, Except.bind]⟩
      · exact ⟨_, rfl⟩
    · exact ⟨e, by simp [he, bind, Except.bind]⟩
  cases a with
  | var v =>
      have hv : (info v).stoch = s := by simpa [Operand.st] using ha
      cases s with
      | false => exact ⟨by simpa [opAnd, hv] using hand, by simpa [opOr, hv] using hoo⟩
      | true =>
          constructor
          · cases b with
            | other => exact ⟨_, by simp only [opAnd, hv, if_true]; rfl⟩
            | dep u d =>
                obtain rfl : u = false := by simpa [Operand.st] using hb
                exact ⟨_, by simp only [opAnd, hv, if_true]; rfl⟩
            | field u ws =>
                obtain rfl : u = false := by simpa [Operand.st] using hb
                exact ⟨_, by simp only [opAnd, hv, if_true]; rfl⟩
            | var w =>
                have hw : (info w).stoch = false := by simpa [Operand.st] using hb
                exact ⟨.type, by simp [opAnd, hv, rvAnd, hw]⟩
          · obtain ⟨e, he⟩ := hnew (.var v) b hone
            exact ⟨e, by simp [opOr, hv, he, bind, Except.bind]⟩
  | field t vs => exact ⟨hand, hoo⟩
  | dep t d => exact ⟨hand, hoo⟩
  | other => simp [Operand.st] at ha

/-! ### Cases of the hypotheses -/

/-- The dependence of `l` on `r`. -/
def sampleDep (l r : List ℕ) : DepObj :=
  ⟨r.foldl addNode (l.foldl addNode []), r.flatMap fun u => l.map fun v => (u, v), l, [], some r,
    some r⟩

-- `y,z & (x|w)`: the hypotheses of `C76_field_dep_partial`
example : Spec.VarsOf sampleInfo true (.field true [2, 3]) [2, 3] ∧
    Spec.VarsOf sampleInfo true (.field true (sampleDep [1] [4]).leafs) (sampleDep [1] [4]).leafs ∧
    (sampleDep [1] [4]).roots = some [4] ∧ Spec.VarsOf sampleInfo true (.field true [4]) [4] ∧
    (sampleDep [1] [4]).stems = [] :=
  ⟨.field _ (by simp) (by decide) fun _ _ => rfl, .field _ (by simp [sampleDep]) (by decide) fun _ _ => rfl,
    rfl, .field _ (by simp) (by decide) fun _ _ => rfl, rfl⟩

theorem sampleDep_classified (l r : List ℕ) (hl : l ≠ []) (hr : r ≠ []) (h : ∀ v ∈ l, v ∉ r) :
    Spec.Classified (sampleDep l r) :=
  C45_fields_partial sampleInfo true [l, r] _ (by
    intro f hf
    simp only [List.mem_cons, List.not_mem_nil, or_false] at hf
    rcases hf with rfl | rfl <;> assumption) (by simpa using h) rfl

-- `(x|z) & (y|z)`: the hypotheses of `C76_and_deps_partial`, with its premise of classification
example : (∀ c ∈ [sampleDep [1] [3], sampleDep [2] [3]],
      Spec.Classified c ∧ c.stems = [] ∧ c.leafs ≠ []) ∧
    (∃ c, opAnd sampleInfo (.dep true (sampleDep [1] [3])) (.dep true (sampleDep [2] [3])) = .ok c) ∧
    ¬ ∀ v, v ∈ (sampleDep [2] [3]).roots.getD [] ↔ v ∈ (sampleDep [1] [3]).leafs := by
  refine ⟨?_, ⟨_, rfl⟩, ?_⟩
  · intro c hc
    simp only [List.mem_cons, List.not_mem_nil, or_false] at hc
    rcases hc with rfl | rfl
    · exact ⟨sampleDep_classified _ _ (by simp) (by simp) (by simp), rfl, by simp [sampleDep]⟩
    · exact ⟨sampleDep_classified _ _ (by simp) (by simp) (by simp), rfl, by simp [sampleDep]⟩
  · intro h
    exact absurd ((h 3).mp (by simp [sampleDep])) (by simp [sampleDep])

-- `(y|z) & (x|y)`: the hypotheses of `C76_and_series`
example : (sampleDep [2] [3]).roots ≠ none ∧ (sampleDep [1] [2]).roots ≠ none ∧
    ∀ v, v ∈ (sampleDep [1] [2]).roots.getD [] ↔ v ∈ (sampleDep [2] [3]).leafs := by
  simp [sampleDep]

-- a dependence with stems and roots: the hypotheses of `C76_field_stems_refused`
example : ∃ d r, depRefresh sampleInfo true [1, 2, 3] [(3, 2), (2, 1)] = .ok d ∧
    d.roots = some r ∧ r ≠ [] ∧ d.stems ≠ [] := ⟨_, [3], rfl, rfl, by simp, by decide⟩

-- dependences on nothing: the hypotheses of `C76_var_leaf_conditions` and
-- `C76_var_leafs_refused`
example : ∃ d e, newDep sampleInfo true [.var 2] = .ok d ∧ d.leafs = [2] ∧ d.roots = none ∧
    d.stems = [] ∧ newDep sampleInfo true [.field true [2, 3]] = .ok e ∧ e.leafs = [2, 3] :=
  ⟨_, _, rfl, rfl, rfl, rfl, rfl, rfl⟩

-- a random variable and a field of others: the hypotheses of `C76_mixed_refused`
example : let info : ℕ → VarInfo := fun v => ⟨List.replicate v 'x', v = 1⟩
    Spec.DistinctNames info ∧ (Operand.var 1).st info = some true ∧
    (Operand.field false [2, 3]).st info = some (!true) ∧
    (∀ v, Spec.Member (.var 1) v → (info v).stoch = true) ∧
    (∀ v, Spec.Member (.field false [2, 3]) v → (info v).stoch = !true) ∧
    (∃ v, Spec.Member (.var 1) v) ∧ ∃ v, Spec.Member (.field false [2, 3]) v := by
  refine ⟨fun u v h => by simpa using congrArg List.length h, rfl, rfl, ?_, ?_, ⟨1, .var 1⟩,
    ⟨2, .field _ _ _ (by simp)⟩⟩
  · rintro v ⟨⟩; rfl
  · rintro v ⟨⟩
    rename_i h
    simp only [List.mem_cons, List.not_mem_nil, or_false] at h
    rcases h with rfl | rfl <;> rfl

end Probayes
