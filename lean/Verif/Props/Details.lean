/-
Details of C13, C45 and C46: values `{None}`, absent roots, and functions without arguments.
-/
import Verif.Props.VarInit
import Verif.Props.PDInit
import Verif.Props.Dependence
import Verif.Props.Expression

namespace Probayes

/-! ### C13 -/

theorem dimsStep_singleton {e : Bool} {st st' : AxState} {k : Str} {v : Val} (hv : v.issingleton = true)
    (h : dimsStep e st (k, v) = .ok st') : st'.vals = st.vals ++ [(k, v)] := by
  simp only [dimsStep, hv, if_true, dimsScalar] at h
  split at h
  · simp only [Except.ok.injEq] at h; rw [← h]
  · split at h
    · simp at h
    · simp only [Except.ok.injEq] at h; rw [← h]
    · simp only [Except.ok.injEq] at h; rw [← h]

theorem dimsStep_appends {e : Bool} {st st' : AxState} {kv : Str × Val} (h : dimsStep e st kv = .ok st') :
    ∃ v', st'.vals = st.vals ++ [(kv.1, v')] := by
  by_cases hv : kv.2.issingleton = true
  · exact ⟨kv.2, dimsStep_singleton hv h⟩
  · simp only [dimsStep, hv, Bool.false_eq_true, if_false, dimsArray] at h
    split at h
    · split at h
      · simp at h
      · split at h
        · simp only [Except.ok.injEq] at h; rw [← h]; exact ⟨_, rfl⟩
        · split at h
          · simp at h
          · simp at h
          · simp only [Except.ok.injEq] at h; rw [← h]; exact ⟨_, rfl⟩
    · simp at h

theorem dimsFold_mem {e : Bool} {k : Str} {v : Val} (hv : v.issingleton = true) :
    ∀ (l : List (Str × Val)) (st st' : AxState), l.foldlM (dimsStep e) st = .ok st' →
      ((k, v) ∈ st.vals → (k, v) ∈ st'.vals) ∧ ((k, v) ∈ l → (k, v) ∈ st'.vals) := by
  intro l
  induction l with
  | nil =>
      intro st st' h
      simp only [List.foldlM_nil, pure, Except.pure, Except.ok.injEq] at h
      subst h
      exact ⟨id, fun h => absurd h (by simp)⟩
  | cons kv l ih =>
      intro st st' h
      rw [List.foldlM_cons] at h
      rcases h1 : dimsStep e st kv with err | st1
      · simp [h1, bind, Except.bind] at h
      · simp only [h1, bind, Except.bind] at h
        obtain ⟨i1, i2⟩ := ih st1 st' h
        obtain ⟨v', hv'⟩ := dimsStep_appends h1
        refine ⟨fun hm => i1 (by rw [hv']; exact List.mem_append_left _ hm), fun hm => ?_⟩
        rcases List.mem_cons.mp hm with h0 | h0
        · subst h0
          exact i1 (by rw [dimsStep_singleton hv h1]; simp)
        · exact i2 h0

/-- C13: a value `{None}` becomes `{0}`, whether dimensions are given or not. -/
theorem C13_none_zero (vals : Dict Str Val) (dims : Option (Dict Str (Option ℕ))) (d : Dist)
    (h : distDims vals dims = .ok d) (k : Str) (hk : (k, Val.setnone) ∈ vals) : (k, Val.setint 0) ∈ d.vals := by
  have hne : vals.isEmpty = false := by cases vals <;> simp_all
  unfold distDims at h
  simp only [hne, Bool.false_eq_true, if_false] at h
  split at h
  · simp at h
  · rcases hf : List.foldlM (dimsStep dims.isNone) ⟨[], dims.getD [], List.replicate (maxDim (dims.getD [])) none,
      maxDim (dims.getD []), 0, []⟩ (vals.map fun kv => (kv.1, kv.2.fixNone)) with e | st
    · simp [hf, bind, Except.bind] at h
    · simp only [hf, bind, Except.bind] at h
      split at h
      · simp at h
      · simp only [pure, Except.pure, Except.ok.injEq] at h
        subst h
        exact (dimsFold_mem (k := k) (v := .setint 0) rfl _ _ _ hf).2
          (List.mem_map.mpr ⟨(k, .setnone), hk, rfl⟩)

example : ∃ d, distDims [(['x'], Val.setnone), (['y'], .arr [2] [1, 2])] none = .ok d ∧
    (['x'], Val.setint 0) ∈ d.vals := by
  obtain ⟨d, hd⟩ : ∃ d, distDims [(['x'], Val.setnone), (['y'], .arr [2] [1, 2])] none = .ok d := ⟨_, rfl⟩
  exact ⟨d, hd, C13_none_zero _ none d hd _ (by simp)⟩

/-! ### C45 -/

/-- C45: if the classes are determined from the graph, there are no roots (`None`) just if no
variable has children but no parents. -/
theorem C45_roots_none (info : ℕ → VarInfo) (st : Bool) (nodes : List ℕ) (edges : List (ℕ × ℕ)) (d : DepObj)
    (h : depRefresh info st nodes edges = .ok d) :
    d.roots = none ↔ ∀ v ∈ nodes, (∃ w, (v, w) ∈ edges) → ∃ u, (u, v) ∈ edges := by
  have hroots : d.roots = none ↔ rootNodes nodes edges = [] := by
    unfold depRefresh at h
    rcases hl : fieldOf info st (leafNodes nodes edges) with e | l
    · simp [hl] at h
    · simp only [hl] at h
      rcases hr : rootField info st (rootNodes nodes edges) with e | r
      · simp [hr] at h
      · simp only [hr] at h
        rcases hp : depPreds info st edges l (stemNodes info nodes edges) r with e | p
        · simp [hp] at h
        · simp only [hp, Except.ok.injEq] at h
          subst h
          unfold rootField at hr
          by_cases he : (rootNodes nodes edges).isEmpty = true
          · rw [if_pos he] at hr
            simp only [Except.ok.injEq] at hr
            simp [← hr, List.isEmpty_iff.mp he]
          · rw [if_neg he] at hr
            rcases hf : fieldOf info st (rootNodes nodes edges) with e | r'
            · simp [hf] at hr
            · simp only [hf, Except.ok.injEq] at hr
              simp only [← hr, reduceCtorEq, false_iff]
              exact fun h => he (by rw [h]; rfl)
  rw [hroots, rootNodes, List.filter_eq_nil_iff]
  simp only [Bool.and_eq_true, Bool.not_eq_true', ← Bool.not_eq_true, hasChildren_iff, hasParents_iff, not_and,
    not_not]

/-- One variable conditioned by none has no roots. -/
example : ∃ d, depRefresh (fun n => ⟨['x'], n == 0⟩) false [1] [] = .ok d ∧ d.roots = none := ⟨_, rfl, rfl⟩

/-! ### C46 -/

/-- C46: a lambda without arguments refuses positional arguments. -/
theorem C46_lambda_refuses {V : Type} (sub : V → V → V) (c : Call V) (hne : c.args ≠ [])
    (hnd : ∀ d, c.args ≠ [.dict d]) : exprCall sub ⟨none, none⟩ true c = .error .assertion := by
  have hun : unpackDict c = c := by
    unfold unpackDict
    split
    · rename_i d h; exact absurd h (hnd d)
    · rfl
  simp [exprCall, hun, truthy, hne]

/-- Two positional numbers. -/
example : exprCall (fun a _ : ℕ => a) ⟨none, none⟩ true ⟨[.val 1, .val 2], []⟩ = .error .assertion :=
  C46_lambda_refuses _ _ (by simp) (by simp)

namespace VarInit

/-- **C74, a number for the type.**  A number given for the type stands for the type it is of,
zero for none, and an infinite number is refused. -/
theorem C74_type_by_value (vset : Arg) (v : Num) :
    (∀ t, Spec.OfType t v → v.value ≠ Ext.ofRat 0 → init vset (.scalar v) = init vset (.ty t)) ∧
    (v.value = Ext.ofRat 0 → init vset (.scalar v) = init vset .none) ∧
    (¬ Spec.Finite v → init vset (.scalar v) = .error .key) := by
  refine ⟨fun t ht h0 => ?_, fun h0 => ?_, fun hi => ?_⟩
  · have h1 : setVtypeNew (.scalar v) = setVtypeNew (.ty t) := by
      simp [setVtypeNew, Arg.truth, Arg.evalTy, h0, ofType_fin ht, ofType_ty ht]
    have h2 : (Arg.scalar v).truth = .ok true := by simp [Arg.truth, h0]
    simp only [init, Arg.isSet, Bool.false_eq_true, if_false, bind, Except.bind, h1, h2, truth_ty]
  · have h2 : (Arg.scalar v).truth = .ok false := by simp [Arg.truth, h0]
    have h1 : setVtypeNew (.scalar v) = setVtypeNew .none := by
      simp only [setVtypeNew, h2, truth_none, bind, Except.bind, Bool.false_eq_true, if_false]
    simp only [init, Arg.isSet, Bool.false_eq_true, if_false, bind, Except.bind, h1, h2, truth_none]
  · cases v with
    | inf s =>
      have h0 : (Num.inf s).value ≠ Ext.ofRat 0 := by cases s <;> decide
      have h2 : (Arg.scalar (.inf s)).truth = .ok true := by simp [Arg.truth, h0]
      have h1 : setVtypeNew (.scalar (.inf s)) = .error .key := by
        simp [setVtypeNew, h2, bind, Except.bind, Arg.evalTy, Num.isInf]
      simp only [init, Arg.isSet, Bool.false_eq_true, if_false, bind, Except.bind, h1, h2, if_true]
    | _ => exact absurd (fun s h => by cases h) hi

/-- **C74, two sets.**  Of two sets the second is the set and the first stands for the type that
holds all its numbers. -/
theorem C74_two_sets (xs : List Num) (hne : xs ≠ []) (hf : ∀ x ∈ xs, Spec.Finite x) (s : SetArg) (t : Ty)
    (h1 : ∃ x ∈ xs, Spec.OfType t x)
    (h2 : ∀ x ∈ xs, Spec.OfType t x ∨ Spec.OfType .bool x ∨ (t = .float ∧ Spec.OfType .int x)) :
    init (.set (.set xs)) (.set s) = init (.set s) (.ty t) := by
  have hinf : xs.any (·.isInf) = false := by
    rw [List.any_eq_false]
    intro x hx
    cases x with
    | inf s => exact absurd rfl (hf _ hx s)
    | _ => simp [Num.isInf]
  have hp : promote xs = some t := by
    have hemp : xs.isEmpty = false := by simpa using hne
    obtain ⟨y, hy, hty⟩ := h1
    unfold promote
    rw [hinf, hemp]
    simp only [Bool.false_eq_true, if_false, Bool.false_or]
    have hno : ∀ u, t ≠ u → (∀ x, Spec.OfType .bool x → x.ty ≠ u) → (t = .float → u ≠ .int) →
        xs.any (fun x => decide (x.ty = u)) = false := by
      intro u htu hb hfi
      rw [List.any_eq_false]
      intro x hx
      simp only [decide_eq_true_eq]
      rcases h2 x hx with h | h | ⟨h, h'⟩
      · rw [ofType_ty h]; exact htu
      · exact hb x h
      · rw [ofType_ty h']; exact fun e => hfi h e.symm
    have hyes : xs.any (fun x => decide (x.ty = t)) = true :=
      List.any_eq_true.mpr ⟨y, hy, by simp [ofType_ty hty]⟩
    have hb : ∀ u, u ≠ Ty.bool → ∀ x, Spec.OfType .bool x → x.ty ≠ u := by
      intro u hu x hx; rw [ofType_ty hx]; exact hu.symm
    cases t with
    | float => simp [hyes]
    | int =>
      rw [hno .float (by decide) (hb _ (by decide)) (by simp), hyes]; rfl
    | bool =>
      rw [hno .float (by decide) (hb _ (by decide)) (by simp),
        hno .int (by decide) (hb _ (by decide)) (by simp)]; rfl
  have ht : (Arg.set (.set xs)).truth = .ok true := by
    simp [Arg.truth, hne]
  have hv : setVtypeNew (.set (.set xs)) = setVtypeNew (.ty t) := by
    simp [setVtypeNew, ht, truth_ty, Arg.evalTy, hp, bind, Except.bind]
  simp only [init, Arg.isSet, Bool.false_eq_true, if_false, if_true, bind, Except.bind, ht, hv, truth_ty]

example : init (.set (.set [.int 3, .bool true, .flt (1/2)])) (.set (.list [.incl (.int 0), .excl (.int 1)])) =
    init (.set (.list [.incl (.int 0), .excl (.int 1)])) (.ty .float) :=
  C74_two_sets _ (by simp) (by simp [Spec.Finite]) _ .float ⟨.flt (1/2), by simp, trivial⟩
    (by simp [Spec.OfType])

example : init (.set (.set [.int 2, .int 5])) (.scalar (.int 7)) = init (.set (.set [.int 2, .int 5])) (.ty .int) :=
  (C74_type_by_value _ _).1 .int trivial (by decide)

end VarInit

end Probayes
