/-
C74: the type and the set of a variable are those it was declared with.
-/
import Verif.Model.VarInit

namespace Probayes.VarInit

/-! ### Specification -/

/-- `x` respects the limit `l` from above: beyond it, or at it when it is
inclusive. -/
def Spec.Above : Lim → ℚ → Prop
  | .incl v, x => v.value ≤ Ext.ofRat x
  | .excl v, x => v.value < Ext.ofRat x

/-- `x` respects the limit `l` from below. -/
def Spec.Below : Lim → ℚ → Prop
  | .incl v, x => Ext.ofRat x ≤ v.value
  | .excl v, x => Ext.ofRat x < v.value

/-- The values of the interval with the two limits given in either order: the one
of smaller value is the lower limit. -/
def Spec.InInterval (a b : Lim) (x : ℚ) : Prop :=
  if a.num.value ≤ b.num.value then Spec.Above a x ∧ Spec.Below b x
  else Spec.Above b x ∧ Spec.Below a x

/-- Finite numbers that are Python objects of the given type. -/
def Spec.OfType (t : Ty) (v : Num) : Prop :=
  match t, v with
  | .bool, .bool _ => True
  | .int, .int _ => True
  | .float, .flt _ => True
  | _, _ => False

/-- Finite numbers. -/
def Spec.Finite (v : Num) : Prop := ∀ s, v ≠ .inf s

/-- `w` is the finite number `v` as an object of the given type: as a Boolean whether
it is not zero, as an integer its whole part, as a float the same number. -/
def Spec.Converted : Ty → Num → Num → Prop
  | .bool, v, w => ∃ b, w = .bool b ∧ (b = true ↔ v.value ≠ Ext.ofRat 0)
  | .int, v, w => ∃ (n : ℤ) (q : ℚ), w = .int n ∧ v.value = Ext.ofRat q ∧
      |(n : ℚ)| ≤ |q| ∧ |q| < |(n : ℚ)| + 1 ∧ 0 ≤ n * q
  | .float, v, w => ∃ q : ℚ, w = .flt q ∧ v.value = Ext.ofRat q

/-- The two limits of a variable are the least and the greatest of some values. -/
def Spec.Extremes (lo hi : Ext) (xs : List Num) : Prop :=
  (∀ y ∈ xs, lo ≤ y.value ∧ y.value ≤ hi) ∧ (∃ y ∈ xs, y.value = lo) ∧ ∃ y ∈ xs, y.value = hi

/-- A variable is the discrete variable of the given type over the given values,
in that order. -/
structure Spec.Discrete (v : Var) (t : Ty) (xs : List Num) : Prop where
  ty : v.ty = t
  vset : v.vset = xs.map .incl
  inside : ∀ x : ℚ, v.inside x = true ↔ ∃ y ∈ xs, y.value = Ext.ofRat x
  limits : Spec.Extremes v.lo v.hi xs

/-- `m` is the limit `l` with its number as a float or an infinity. -/
def Spec.FloatLim (l m : Lim) : Prop :=
  m.num.value = l.num.value ∧ ((∃ q, m.num = .flt q) ∨ ∃ s, m.num = .inf s) ∧
    ((∃ x, m = .excl x) ↔ ∃ x, l = .excl x)

/-- The set consists of the two limits, the lower one first, as floats. -/
def Spec.Limits (a b : Lim) (vset : List Lim) : Prop :=
  ∃ l u, vset = [l, u] ∧
    if a.num.value ≤ b.num.value then Spec.FloatLim a l ∧ Spec.FloatLim b u
    else Spec.FloatLim b l ∧ Spec.FloatLim a u

/-- A variable is the continuous variable over the interval with the given
limits. -/
structure Spec.Continuous (v : Var) (a b : Lim) : Prop where
  ty : v.ty = .float
  inside : ∀ x : ℚ, v.inside x = true ↔ Spec.InInterval a b x
  vset : Spec.Limits a b v.vset
  lower : v.lo = min a.num.value b.num.value
  upper : v.hi = max a.num.value b.num.value

/-! ### Lemmas -/

/-- What the loop does to an entry once the type is known. -/
def convLim (t : Ty) : Lim → Lim
  | .incl v => .incl (if v.isInf then v else t.conv v)
  | .excl v => .excl (if v.isInf then v else t.conv v)

theorem convStep_own (t : Ty) (l : Lim) :
    convStep (some t) (some t) l = .ok (t, convLim t l) := by
  cases l with
  | excl v => rfl
  | incl v =>
      cases hv : v.isInf <;> simp [convStep, convLim, hv]

theorem convLoop_own (t : Ty) (ls : List Lim) :
    convLoop (some t) (some t) ls = .ok (some t, ls.map (convLim t)) := by
  induction ls with
  | nil => rfl
  | cons l ls ih =>
      simp only [convLoop, convStep_own, bind, Except.bind, ih, pure, Except.pure,
        List.map_cons]

theorem ofType_fin {t : Ty} {v : Num} (h : Spec.OfType t v) : v.isInf = false := by
  cases t <;> cases v <;> simp_all [Spec.OfType, Num.isInf]

theorem ofType_ty {t : Ty} {v : Num} (h : Spec.OfType t v) : v.ty = t := by
  cases t <;> cases v <;> simp_all [Spec.OfType, Num.ty]

theorem ofType_conv {t : Ty} {v : Num} (h : Spec.OfType t v) : t.conv v = v := by
  cases t <;> cases v <;> simp_all [Spec.OfType, Ty.conv]

theorem convLoop_typed {t : Ty} : ∀ {xs : List Num}, (∀ v ∈ xs, Spec.OfType t v) →
    convLoop none (some t) (xs.map .incl) = .ok (some t, xs.map .incl)
  | [], _ => rfl
  | x :: xs, h => by
      have hx := h x (by simp)
      have ih := convLoop_typed (xs := xs) fun v hv => h v (by simp [hv])
      have hs : convStep none (some t) (.incl x) = .ok (t, .incl x) := by
        simp [convStep, ofType_fin hx, ofType_ty hx, ofType_conv hx]
      simp only [List.map_cons, convLoop, hs, bind, Except.bind, ih, pure, Except.pure]

theorem convLoop_new {t : Ty} {x : Num} {xs : List Num}
    (h : ∀ v ∈ x :: xs, Spec.OfType t v) :
    convLoop none none ((x :: xs).map .incl) = .ok (some t, (x :: xs).map .incl) := by
  have hx := h x (by simp)
  have hs : convStep none none (.incl x) = .ok (t, .incl x) := by
    simp [convStep, ofType_fin hx, ofType_ty hx, ofType_conv hx]
  have := convLoop_typed (xs := xs) fun v hv => h v (by simp [hv])
  simp only [List.map_cons, convLoop, hs, bind, Except.bind, this, pure, Except.pure]

theorem convLim_typed {t : Ty} {xs : List Num} (h : ∀ v ∈ xs, Spec.OfType t v) :
    (xs.map Lim.incl).map (convLim t) = xs.map Lim.incl := by
  rw [List.map_map]
  apply List.map_congr_left
  intro v hv
  simp [convLim, ofType_fin (h v hv), ofType_conv (h v hv)]

theorem lowest_spec (x : Ext) (xs : List Ext) :
    (∀ y ∈ x :: xs, lowest x xs ≤ y) ∧ lowest x xs ∈ x :: xs := by
  induction xs generalizing x with
  | nil => simp [lowest]
  | cons z zs ih =>
      have hz := ih (min x z)
      have he : lowest x (z :: zs) = lowest (min x z) zs := rfl
      rw [he]
      have hm := hz.1 (min x z) (by simp)
      refine ⟨fun y hy => ?_, ?_⟩
      · simp only [List.mem_cons] at hy
        rcases hy with rfl | rfl | hy
        · exact hm.trans (min_le_left _ _)
        · exact hm.trans (min_le_right _ _)
        · exact hz.1 y (by simp [hy])
      · have := hz.2
        simp only [List.mem_cons] at this ⊢
        rcases this with h | h
        · rcases min_choice x z with hc | hc <;> rw [hc] at h <;> rw [hc] <;> simp [h]
        · simp [h]

theorem highest_spec (x : Ext) (xs : List Ext) :
    (∀ y ∈ x :: xs, y ≤ highest x xs) ∧ highest x xs ∈ x :: xs := by
  induction xs generalizing x with
  | nil => simp [highest]
  | cons z zs ih =>
      have hz := ih (max x z)
      have he : highest x (z :: zs) = highest (max x z) zs := rfl
      rw [he]
      have hm := hz.1 (max x z) (by simp)
      refine ⟨fun y hy => ?_, ?_⟩
      · simp only [List.mem_cons] at hy
        rcases hy with rfl | rfl | hy
        · exact (le_max_left _ _).trans hm
        · exact (le_max_right _ _).trans hm
        · exact hz.1 y (by simp [hy])
      · have := hz.2
        simp only [List.mem_cons] at this ⊢
        rcases this with h | h
        · rcases max_choice x z with hc | hc <;> rw [hc] at h <;> rw [hc] <;> simp [h]
        · simp [h]

theorem evalLims_discrete {t : Ty} (ht : t ≠ .float) {xs : List Num} (hne : xs ≠ []) :
    ∃ v, evalLims t (xs.map .incl) = .ok v ∧ Spec.Discrete v t xs := by
  obtain ⟨x, xs, rfl⟩ := List.exists_cons_of_ne_nil hne
  refine ⟨⟨t, (x :: xs).map .incl, (x :: xs).map .incl,
    lowest x.value (xs.map (·.value)), highest x.value (xs.map (·.value)), t⟩, ?_, ?_⟩
  · have hall : (xs.map Lim.incl).all (fun m => m.isExcl == (Lim.incl x).isExcl) = true := by
      simp [Lim.isExcl]
    simp only [evalLims, if_neg ht, List.map_cons, hall, if_true, Lim.num, List.map_map]
    rfl
  · refine ⟨rfl, rfl, fun q => ?_, ?_⟩
    · have : ∀ (k : Ty), k ≠ .float → ∀ (lo hi : Ext) (vs raw : List Lim),
          (Var.inside ⟨t, vs, raw, lo, hi, k⟩ q = true ↔ ∃ l ∈ vs, l.num.value = Ext.ofRat q) := by
        intro k hk lo hi vs raw
        cases k with
        | float => exact absurd rfl hk
        | bool => simp [Var.inside]
        | int => simp [Var.inside]
      rw [this t ht]
      simp [Lim.num]
    · have hl := lowest_spec x.value (xs.map (·.value))
      have hh := highest_spec x.value (xs.map (·.value))
      have hm : x.value :: xs.map (·.value) = (x :: xs).map (·.value) := rfl
      rw [hm] at hl hh
      refine ⟨fun y hy => ⟨hl.1 _ (List.mem_map.mpr ⟨y, hy, rfl⟩),
        hh.1 _ (List.mem_map.mpr ⟨y, hy, rfl⟩)⟩, ?_, ?_⟩
      · obtain ⟨y, hy, he⟩ := List.mem_map.mp hl.2
        exact ⟨y, hy, he⟩
      · obtain ⟨y, hy, he⟩ := List.mem_map.mp hh.2
        exact ⟨y, hy, he⟩

theorem setVset_typed {t : Ty} (ht : t ≠ .float) {own : Option Ty} (ho : own = none ∨ own = some t)
    {xs : List Num} (hne : xs ≠ []) (h : ∀ v ∈ xs, Spec.OfType t v) {arg : Arg}
    (ha : toList own arg = .ok (xs.map .incl)) :
    ∃ v, setVset own arg = .ok v ∧ Spec.Discrete v t xs := by
  have hloop : convLoop own own (xs.map .incl) = .ok (some t, xs.map .incl) := by
    rcases ho with rfl | rfl
    · obtain ⟨x, xs, rfl⟩ := List.exists_cons_of_ne_nil hne
      exact convLoop_new h
    · rw [convLoop_own, convLim_typed h]
  simp only [setVset, ha, bind, Except.bind, hloop]
  exact evalLims_discrete ht hne

/-- The default variable of a type. -/
def defaultVar (t : Ty) : Var :=
  match t with
  | .bool => ⟨.bool, defaultSet .bool, defaultSet .bool, Ext.ofRat 0, Ext.ofRat 1, .bool⟩
  | .int => ⟨.int, defaultSet .int, defaultSet .int, Ext.ofRat 0, Ext.ofRat 1, .int⟩
  | .float => ⟨.float, defaultSet .float, defaultSet .float, ⊥, ((⊤ : WithTop ℚ) : Ext), .float⟩

theorem ofRat_le {a b : ℚ} : Ext.ofRat a ≤ Ext.ofRat b ↔ a ≤ b := by
  simp [Ext.ofRat]

theorem ofRat_lt {a b : ℚ} : Ext.ofRat a < Ext.ofRat b ↔ a < b := by
  simp [Ext.ofRat]

theorem default_ok (t : Ty) :
    ∃ v, setVset (some t) (.set (.list (defaultSet t))) = .ok v ∧ v.ty = t := by
  cases t <;> refine ⟨_, rfl, rfl⟩

theorem vtypeNew_ty (t : Ty) : ∃ v, setVtypeNew (.ty t) = .ok v ∧ v.ty = t := by
  obtain ⟨v, hv, ht⟩ := default_ok t
  exact ⟨v, by simp [setVtypeNew, Arg.truth, Arg.evalTy, bind, Except.bind, hv], ht⟩

/-- The type argument for a variable of type `t`: left out or given. -/
def Spec.Types (t : Ty) (vt : Arg) : Prop := vt = .none ∨ vt = .ty t

theorem truth_none : Arg.none.truth = .ok false := rfl
theorem truth_ty (t : Ty) : (Arg.ty t).truth = .ok true := rfl

theorem init_set {t : Ty} {vt : Arg} (hv : Spec.Types t vt) {s : SetArg}
    (hs : (Arg.set s).truth = .ok true) :
    (∃ own, (own = none ∨ own = some t) ∧ (vt = .ty t → own = some t) ∧
      init (.set s) vt = setVset own (.set s)) := by
  rcases hv with rfl | rfl
  · refine ⟨none, .inl rfl, (by intro h; cases h), ?_⟩
    simp [init, Arg.isSet, bind, Except.bind, truth_none, hs]
  · refine ⟨some t, .inr rfl, (fun _ => rfl), ?_⟩
    obtain ⟨v, h1, h2⟩ := vtypeNew_ty t
    simp [init, Arg.isSet, bind, Except.bind, truth_ty, hs, h1, h2]

theorem sortNum_perm (xs : List Num) : (sortNum xs).Perm xs := List.mergeSort_perm _ _

theorem sortNum_sorted (xs : List Num) :
    (sortNum xs).Pairwise fun a b => a.value ≤ b.value := by
  have := List.pairwise_mergeSort (le := fun a b : Num => decide (a.value ≤ b.value))
    (fun a b c h1 h2 => by simp only [decide_eq_true_eq] at *; exact h1.trans h2)
    (fun a b => by simp only [Bool.or_eq_true, decide_eq_true_eq]; exact le_total _ _) xs
  exact this.imp fun h => by simpa using h

theorem sortNum_pair (a b : Num) :
    sortNum [a, b] = if a.value ≤ b.value then [a, b] else [b, a] := by
  by_cases h : a.value ≤ b.value <;>
    simp [sortNum, List.mergeSort, List.MergeSort.Internal.splitInTwo, h]

theorem conv_float_value (v : Num) :
    (if v.isInf then v else Ty.float.conv v).value = v.value := by
  cases v <;> simp [Num.isInf, Ty.conv, Num.value]

theorem convLim_float (l : Lim) :
    (convLim .float l).num.value = l.num.value ∧ (convLim .float l).isExcl = l.isExcl := by
  cases l <;> simp [convLim, Lim.num, Lim.isExcl, conv_float_value]

theorem above_conv (l : Lim) (x : ℚ) :
    (if (convLim .float l).isExcl then decide (l.num.value < Ext.ofRat x)
      else decide (l.num.value ≤ Ext.ofRat x)) = true ↔ Spec.Above l x := by
  cases l <;> exact decide_eq_true_iff

theorem below_conv (l : Lim) (x : ℚ) :
    (if (convLim .float l).isExcl then decide (Ext.ofRat x < l.num.value)
      else decide (Ext.ofRat x ≤ l.num.value)) = true ↔ Spec.Below l x := by
  cases l <;> exact decide_eq_true_iff

theorem floatLim_conv (l : Lim) : Spec.FloatLim l (convLim .float l) := by
  refine ⟨(convLim_float l).1, ?_, ?_⟩
  · cases l with
    | incl v => cases v <;> simp [convLim, Lim.num, Num.isInf, Ty.conv]
    | excl v => cases v <;> simp [convLim, Lim.num, Num.isInf, Ty.conv]
  · cases l <;> simp [convLim]

theorem evalLims_float (a b : Lim) :
    ∃ v, evalLims .float [convLim .float a, convLim .float b] = .ok v ∧
      Spec.Continuous v a b := by
  by_cases h : b.num.value < a.num.value
  · refine ⟨⟨.float, [convLim .float b, convLim .float a],
      [convLim .float a, convLim .float b], b.num.value, a.num.value, .float⟩, ?_, rfl, ?_,
      ⟨_, _, rfl, by rw [if_neg (not_le.mpr h)]; exact ⟨floatLim_conv b, floatLim_conv a⟩⟩, ?_, ?_⟩
    · simp [evalLims, (convLim_float _).1, h]
    · intro x
      simp only [Var.inside, Bool.and_eq_true, above_conv, below_conv, Spec.InInterval,
        if_neg (not_le.mpr h)]
    · exact (min_eq_right h.le).symm
    · exact (max_eq_left h.le).symm
  · refine ⟨⟨.float, [convLim .float a, convLim .float b],
      [convLim .float a, convLim .float b], a.num.value, b.num.value, .float⟩, ?_, rfl, ?_,
      ⟨_, _, rfl, by rw [if_pos (not_lt.mp h)]; exact ⟨floatLim_conv a, floatLim_conv b⟩⟩, ?_, ?_⟩
    · simp [evalLims, (convLim_float _).1, h]
    · intro x
      simp only [Var.inside, Bool.and_eq_true, above_conv, below_conv, Spec.InInterval,
        if_pos (not_lt.mp h)]
    · exact (min_eq_left (not_lt.mp h)).symm
    · exact (max_eq_right (not_lt.mp h)).symm

theorem setVset_float {arg : Arg} {a b : Lim} (ha : toList (some .float) arg = .ok [a, b]) :
    ∃ v, setVset (some .float) arg = .ok v ∧ Spec.Continuous v a b := by
  simp only [setVset, ha, bind, Except.bind, convLoop_own, List.map_cons, List.map_nil]
  exact evalLims_float a b

theorem inInterval_comm {a b : Lim} (h : a.num.value ≠ b.num.value) (x : ℚ) :
    Spec.InInterval a b x ↔ Spec.InInterval b a x := by
  unfold Spec.InInterval
  rcases lt_or_gt_of_ne h with h | h
  · rw [if_pos h.le, if_neg (not_le.mpr h)]
  · rw [if_neg (not_le.mpr h), if_pos h.le]

theorem limits_comm {a b : Lim} (h : a.num.value ≠ b.num.value) {vs : List Lim}
    (hv : Spec.Limits a b vs) : Spec.Limits b a vs := by
  obtain ⟨l, u, rfl, hv⟩ := hv
  refine ⟨l, u, rfl, ?_⟩
  rcases lt_or_gt_of_ne h with h | h
  · rw [if_pos h.le] at hv
    rw [if_neg (not_le.mpr h)]
    exact hv
  · rw [if_neg (not_le.mpr h)] at hv
    rw [if_pos h.le]
    exact hv

theorem continuous_comm {v : Var} {a b : Lim} (h : a.num.value ≠ b.num.value)
    (hv : Spec.Continuous v a b) : Spec.Continuous v b a :=
  ⟨hv.ty, fun x => (hv.inside x).trans (inInterval_comm h x), limits_comm h hv.vset, hv.lower.trans (min_comm _ _),
    hv.upper.trans (max_comm _ _)⟩

theorem ofRat_inj {p q : ℚ} (h : Ext.ofRat p = Ext.ofRat q) : p = q := by
  simpa [Ext.ofRat] using h

theorem trunc_spec (q : ℚ) :
    |(trunc q : ℚ)| ≤ |q| ∧ |q| < |(trunc q : ℚ)| + 1 ∧ 0 ≤ (trunc q : ℚ) * q := by
  unfold trunc
  split
  · rename_i h
    have h0 : (0 : ℚ) ≤ ⌊q⌋ := by exact_mod_cast Int.floor_nonneg.mpr h
    rw [abs_of_nonneg h0, abs_of_nonneg h]
    exact ⟨Int.floor_le q, Int.lt_floor_add_one q, mul_nonneg h0 h⟩
  · rename_i h
    have h := (not_le.mp h).le
    have h0 : ((⌈q⌉ : ℤ) : ℚ) ≤ 0 := by exact_mod_cast Int.ceil_nonpos.mpr h
    rw [abs_of_nonpos h0, abs_of_nonpos h]
    refine ⟨neg_le_neg (Int.le_ceil q), ?_, mul_nonneg_of_nonpos_of_nonpos h0 h⟩
    have := Int.ceil_lt_add_one q
    linarith

theorem conv_spec (t : Ty) {v : Num} (hv : v.isInf = false) : Spec.Converted t v (t.conv v) := by
  have hz : ∀ q, (Ext.ofRat q ≠ Ext.ofRat 0) ↔ q ≠ 0 :=
    fun q => ⟨fun h e => h (by rw [e]), fun h e => h (ofRat_inj e)⟩
  have hself : ∀ q : ℚ, 0 ≤ q * q := fun q => mul_self_nonneg q
  cases t with
  | float =>
      cases v with
      | inf s => cases hv
      | bool b => exact ⟨_, rfl, rfl⟩
      | int n => exact ⟨_, rfl, rfl⟩
      | flt q => exact ⟨_, rfl, rfl⟩
  | bool =>
      cases v with
      | inf s => cases hv
      | bool b => exact ⟨b, rfl, by cases b <;> simp [Num.value, hz]⟩
      | int n => exact ⟨_, rfl, by simp [Num.value, hz]⟩
      | flt q => exact ⟨_, rfl, by simp [Num.value, hz]⟩
  | int =>
      cases v with
      | inf s => cases hv
      | bool b =>
          refine ⟨_, (if b then 1 else 0), rfl, rfl, ?_⟩
          cases b <;> simp
      | int n => exact ⟨n, n, rfl, rfl, le_refl _, lt_add_one _, hself _⟩
      | flt q => exact ⟨_, q, rfl, rfl, trunc_spec q⟩

theorem conv_all (t : Ty) {xs : List Num} (h : ∀ v ∈ xs, v.isInf = false) :
    List.Forall₂ (Spec.Converted t) xs (xs.map t.conv) := by
  induction xs with
  | nil => exact .nil
  | cons x xs ih =>
      exact .cons (conv_spec t (h x (by simp))) (ih fun v hv => h v (by simp [hv]))

/-! ### C74 -/

/-- C74 (defaults): a variable declared without type and set is the Boolean one
over `False, True`; with a type alone it has that type and the set `False, True`,
`0, 1` or the whole line. -/
theorem C74_defaults_partial :
    (∃ v, init .none .none = .ok v ∧ Spec.Discrete v .bool [.bool false, .bool true]) ∧
    (∃ v, init .none (.ty .bool) = .ok v ∧ Spec.Discrete v .bool [.bool false, .bool true]) ∧
    (∃ v, init .none (.ty .int) = .ok v ∧ Spec.Discrete v .int [.int 0, .int 1]) ∧
    (∃ v, init .none (.ty .float) = .ok v ∧
      Spec.Continuous v (.excl (.inf true)) (.excl (.inf false)) ∧ ∀ x, v.inside x = true) := by
  have hd : ∀ t, t ≠ .float → ∀ xs : List Num, defaultSet t = xs.map .incl → xs ≠ [] →
      (∀ v ∈ xs, Spec.OfType t v) →
      ∃ v, setVset (some t) (.set (.list (defaultSet t))) = .ok v ∧ Spec.Discrete v t xs := by
    intro t ht xs hx hne hty
    exact setVset_typed ht (.inr rfl) hne hty (by rw [hx]; rfl)
  have hb := hd .bool (by decide) [.bool false, .bool true] rfl (by simp) (by simp [Spec.OfType])
  have hi := hd .int (by decide) [.int 0, .int 1] rfl (by simp) (by simp [Spec.OfType])
  obtain ⟨v, hv, hf⟩ := setVset_float (arg := .set (.list (defaultSet .float)))
    (a := .excl (.inf true)) (b := .excl (.inf false)) rfl
  have hnew : ∀ t, init .none (.ty t) = setVset (some t) (.set (.list (defaultSet t))) := by
    intro t
    have h0 : setVtypeNew (.ty t) = setVset (some t) (.set (.list (defaultSet t))) := rfl
    obtain ⟨w, hw, -⟩ := default_ok t
    simp [init, Arg.isSet, bind, Except.bind, truth_ty, truth_none, h0, hw, pure, Except.pure]
  refine ⟨hb, by rw [hnew]; exact hb, by rw [hnew]; exact hi, v, by rw [hnew]; exact hv, hf, ?_⟩
  intro x
  rw [hf.inside]
  have h1 : (⊥ : Ext) < Ext.ofRat x := WithBot.bot_lt_coe _
  have h2 : Ext.ofRat x < ((⊤ : WithTop ℚ) : Ext) := WithBot.coe_lt_coe.mpr (WithTop.coe_lt_top x)
  have h3 : (Lim.excl (.inf true)).num.value ≤ (Lim.excl (.inf false)).num.value :=
    (show (⊥ : Ext) ≤ _ from bot_le)
  rw [Spec.InInterval, if_pos h3]
  exact ⟨h1, h2⟩

/-- C74 (intervals): a variable declared `float` with two limits, as a list, is
the continuous variable over the interval with these limits, whatever their order,
their inclusion and the kind of number they are given as. -/
theorem C74_interval (a b : Lim) :
    ∃ v, init (.set (.list [a, b])) (.ty .float) = .ok v ∧ Spec.Continuous v a b := by
  obtain ⟨own, -, ho, hi⟩ := init_set (t := .float) (vt := .ty .float) (.inr rfl)
    (s := .list [a, b]) rfl
  rw [hi, ho rfl]
  exact setVset_float rfl

/-- A list of limits in the wrong order, one of them exclusive and an integer. -/
example : ∃ v, init (.set (.list [.incl (.flt 2), .excl (.int 1)])) (.ty .float) = .ok v ∧
    v.vset = [.excl (.flt 1), .incl (.flt 2)] ∧ v.inside 1 = false ∧ v.inside 2 = true :=
  ⟨_, rfl, rfl, rfl, rfl⟩

/-- C74 (intervals): a pair declares the open interval between its two values. -/
theorem C74_interval_pair (a b : Num) :
    ∃ v, init (.set (.tuple [a, b])) (.ty .float) = .ok v ∧
      Spec.Continuous v (.excl a) (.excl b) := by
  obtain ⟨own, -, ho, hi⟩ := init_set (t := .float) (vt := .ty .float) (.inr rfl)
    (s := .tuple [a, b]) rfl
  rw [hi, ho rfl]
  by_cases h : a.value ≤ b.value
  · exact setVset_float (by simp [toList, sortNum_pair, h])
  · obtain ⟨v, hv, hc⟩ := setVset_float (arg := .set (.tuple [a, b]))
      (a := .excl b) (b := .excl a) (by simp [toList, sortNum_pair, h])
    refine ⟨v, hv, continuous_comm ?_ hc⟩
    intro he
    exact h (le_of_eq he.symm)

/-- The documented example (variable.py:159-165). -/
example : ∃ v, init (.set (.tuple [.int 1, .int 2])) (.ty .float) = .ok v ∧
    v.vset = [.excl (.flt 1), .excl (.flt 2)] := by
  have : sortNum [.int 1, .int 2] = [.int 1, .int 2] := by rw [sortNum_pair]; decide
  exact ⟨_, by simp [init, setVtypeNew, setVset, toList, this, Arg.isSet, Arg.truth, Arg.evalTy,
    convLoop, convStep]; rfl, rfl⟩

/-- C74 (lists of values): a discrete variable declared with a nonempty list of
values of its type, with or without its type, is the variable of that type over
these values in that order. -/
theorem C74_list_partial {t : Ty} (ht : t ≠ .float) {vt : Arg} (hvt : Spec.Types t vt) {xs : List Num}
    (hne : xs ≠ []) (hx : ∀ v ∈ xs, Spec.OfType t v) :
    ∃ v, init (.set (.list (xs.map .incl))) vt = .ok v ∧ Spec.Discrete v t xs := by
  obtain ⟨own, ho, -, hi⟩ := init_set hvt (s := .list (xs.map .incl))
    (by cases xs with
      | nil => exact absurd rfl hne
      | cons x xs => rfl)
  rw [hi]
  exact setVset_typed ht ho hne hx rfl

/-- An integer variable over `5, 2, 3` without a type. -/
example : ∃ v, init (.set (.list [.incl (.int 5), .incl (.int 2), .incl (.int 3)])) .none
    = .ok v ∧ Spec.Discrete v .int [.int 5, .int 2, .int 3] :=
  C74_list_partial (t := .int) (xs := [.int 5, .int 2, .int 3]) (by decide) (.inl rfl) (by simp)
    (by simp [Spec.OfType])

/-- C74 (sets and ranges): a discrete variable declared with a nonempty set or
range of values of its type is the variable of that type over these values in
increasing order. -/
theorem C74_set_partial {t : Ty} (ht : t ≠ .float) {vt : Arg} (hvt : Spec.Types t vt) {xs : List Num}
    (hne : xs ≠ []) (hx : ∀ v ∈ xs, Spec.OfType t v) (s : SetArg)
    (hs : s = .set xs ∨ ∃ ns : List ℤ, xs = ns.map .int ∧ s = .range ns) :
    ∃ v ys, init (.set s) vt = .ok v ∧ Spec.Discrete v t ys ∧ ys.Perm xs ∧
      ys.Pairwise fun a b => a.value ≤ b.value := by
  have htruth : (Arg.set s).truth = .ok true := by
    rcases hs with rfl | ⟨ns, rfl, rfl⟩
    · cases xs with
      | nil => exact absurd rfl hne
      | cons x xs => rfl
    · cases ns with
      | nil => exact absurd rfl hne
      | cons x xs => rfl
  have hlist : ∀ own, toList own (.set s) = .ok ((sortNum xs).map .incl) := by
    rcases hs with rfl | ⟨ns, rfl, rfl⟩ <;> intro own <;> rfl
  obtain ⟨own, ho, -, hi⟩ := init_set hvt htruth
  have hp := sortNum_perm xs
  have hne' : sortNum xs ≠ [] := by
    intro h
    rw [h] at hp
    exact hne (List.nil_perm.mp hp)
  obtain ⟨v, hv, hd⟩ := setVset_typed ht ho hne' (fun v hv => hx v (hp.mem_iff.mp hv)) (hlist own)
  exact ⟨v, sortNum xs, hi.trans hv, hd, hp, sortNum_sorted xs⟩

example : ∃ v ys, init (.set (.range [2, 1, 0])) (.ty .int) = .ok v ∧ Spec.Discrete v .int ys ∧
    ys.Perm [.int 2, .int 1, .int 0] ∧ ys.Pairwise fun a b => a.value ≤ b.value :=
  C74_set_partial (by decide) (.inr rfl) (by simp) (by simp [Spec.OfType]) _ (.inr ⟨[2, 1, 0], rfl, rfl⟩)

/-- C74 (conversion): with a discrete type given, finite values of any kind are
converted to the type, entry by entry. -/
theorem C74_converted {t : Ty} (ht : t ≠ .float) {xs : List Num} (hne : xs ≠ [])
    (hx : ∀ v ∈ xs, Spec.Finite v) :
    ∃ v, ∃ ys : List Num, init (.set (.list (xs.map .incl))) (.ty t) = .ok v ∧
      Spec.Discrete v t ys ∧ List.Forall₂ (Spec.Converted t) xs ys := by
  obtain ⟨own, -, ho, hi⟩ := init_set (t := t) (vt := .ty t) (.inr rfl)
    (s := .list (xs.map .incl))
    (by cases xs with
      | nil => exact absurd rfl hne
      | cons x xs => rfl)
  rw [hi, ho rfl]
  have hfin : ∀ v ∈ xs, v.isInf = false := by
    intro v hv
    have := hx v hv
    cases v <;> simp_all [Num.isInf, Spec.Finite]
  have hmap : (xs.map Lim.incl).map (convLim t) = (xs.map t.conv).map Lim.incl := by
    rw [List.map_map, List.map_map]
    apply List.map_congr_left
    intro v hv
    simp [convLim, hfin v hv]
  obtain ⟨v, hv, hd⟩ := evalLims_discrete ht (xs := xs.map t.conv) (by simpa using hne)
  refine ⟨v, xs.map t.conv, ?_, hd, conv_all t hfin⟩
  simp only [setVset, toList, bind, Except.bind, convLoop_own, hmap, hv]

/-- Values converted to integers. -/
example : ∃ v, ∃ ys : List Num,
    init (.set (.list ([.bool true, .flt (7/2)].map .incl))) (.ty .int) = .ok v ∧
    Spec.Discrete v .int ys ∧ List.Forall₂ (Spec.Converted .int) [.bool true, .flt (7/2)] ys :=
  C74_converted (by decide) (by simp) (by simp [Spec.Finite])

/-- C74 (positions): the positions of the set and of the type (or of nothing) may
be swapped. -/
theorem C74_swapped (s : SetArg) (vt : Arg) (hv : vt = .none ∨ ∃ t, vt = .ty t) :
    init vt (.set s) = init (.set s) vt := by
  rcases hv with rfl | ⟨t, rfl⟩ <;> rfl

/-- C74 (random variables): a random variable declared with a set has the type and
the set of the variable declared alike. -/
theorem C74_random_alike (s : SetArg) (vt : Arg) (hv : vt = .none ∨ ∃ t, vt = .ty t) :
    rvInit (.set s) vt = init (.set s) vt := C74_swapped s vt hv

/-- C74 (limits of intervals): a set for a `float` variable must have two entries;
anything else is refused. -/
theorem C74_interval_count (ls : List Lim) (hne : ls ≠ []) (h : ls.length ≠ 2) :
    init (.set (.list ls)) (.ty .float) = .error .assertion := by
  obtain ⟨own, -, ho, hi⟩ := init_set (t := .float) (vt := .ty .float) (.inr rfl)
    (s := .list ls)
    (by cases ls with
      | nil => exact absurd rfl hne
      | cons x xs => rfl)
  rw [hi, ho rfl]
  simp only [setVset, toList, bind, Except.bind, convLoop_own]
  match ls, h with
  | [], _ => rfl
  | [_], _ => rfl
  | [_, _], h => exact absurd rfl h
  | _ :: _ :: _ :: _, _ => rfl

example : init (.set (.list [.incl (.int 1), .incl (.int 2), .incl (.int 3)])) (.ty .float)
    = .error .assertion := C74_interval_count _ (by simp) (by simp)

/-- C74 (pairs): tuples of other than two values are refused, whatever the type. -/
theorem C74_pair_count (xs : List Num) (hne : xs ≠ []) (h : xs.length ≠ 2) (vt : Arg)
    (hv : vt = .none ∨ ∃ t, vt = .ty t) :
    init (.set (.tuple xs)) vt = .error .assertion := by
  have htr : (Arg.set (.tuple xs)).truth = .ok true := by
    cases xs with
    | nil => exact absurd rfl hne
    | cons x xs => rfl
  have hT : ∃ t, Spec.Types t vt := by
    rcases hv with rfl | ⟨t, rfl⟩
    · exact ⟨.bool, .inl rfl⟩
    · exact ⟨t, .inr rfl⟩
  obtain ⟨t, hT⟩ := hT
  obtain ⟨own, -, -, hi⟩ := init_set hT htr
  rw [hi]
  simp [setVset, toList, h, bind, Except.bind]

example : init (.set (.tuple [.int 1, .int 2, .int 3])) .none = .error .assertion :=
  C74_pair_count _ (by simp) (by simp) _ (.inl rfl)

theorem convLoop_clash {t : Ty} {x : Num} (hx : x.isInf = false) (hne : t ≠ x.ty) :
    ∀ {ls : List Lim}, Lim.incl x ∈ ls → convLoop none (some t) ls = .error .type
  | l :: ls, h => by
      by_cases hl : l = .incl x
      · subst hl
        have : convStep none (some t) (.incl x) = .error .type := by
          simp [convStep, hx, hne]
        simp [convLoop, this, bind, Except.bind]
      · have hm : Lim.incl x ∈ ls := by
          rcases List.mem_cons.mp h with h | h
          · exact absurd h.symm hl
          · exact h
        have ih := convLoop_clash hx hne hm
        have hs : (∃ l', convStep none (some t) l = .ok (t, l')) ∨
            convStep none (some t) l = .error .type := by
          cases l with
          | excl v => exact .inl ⟨_, rfl⟩
          | incl v =>
              cases hv : v.isInf
              · by_cases ht : t = v.ty
                · exact .inl ⟨.incl (t.conv v), by simp [convStep, hv, ← ht]⟩
                · exact .inr (by simp [convStep, hv, ht])
              · exact .inl ⟨.incl v, by simp [convStep, hv]⟩
        rcases hs with ⟨l', hs⟩ | hs
        · simp [convLoop, hs, bind, Except.bind, ih]
        · simp [convLoop, hs, bind, Except.bind]

/-- C74 (ambiguity): without a type, a list with values of two different types is
refused with a type error. -/
theorem C74_mixed_refused {ls : List Lim} {x y : Num} (hx : Lim.incl x ∈ ls)
    (hy : Lim.incl y ∈ ls) {s t : Ty} (hs : Spec.OfType s x) (ht : Spec.OfType t y)
    (hne : s ≠ t) : init (.set (.list ls)) .none = .error .type := by
  obtain ⟨own, ho, -, hi⟩ := init_set (t := .bool) (vt := .none) (.inl rfl)
    (s := .list ls) (by
      cases ls with
      | nil => cases hx
      | cons l ls => rfl)
  have hi : init (.set (.list ls)) .none = setVset none (.set (.list ls)) := by
    have htr : (Arg.set (.list ls)).truth = .ok true := by
      cases ls with
      | nil => cases hx
      | cons l ls => rfl
    simp [init, Arg.isSet, bind, Except.bind, truth_none, htr]
  rw [hi]
  have hloop : convLoop none none ls = .error .type := by
    cases ls with
    | nil => cases hx
    | cons l ls =>
        have hstep : ∃ u l', convStep none none l = .ok (u, l') ∧
            ∀ z, Lim.incl z = l → z.isInf = false → u = z.ty := by
          cases l with
          | excl v => exact ⟨_, _, rfl, fun z hz => by cases hz⟩
          | incl v =>
              cases hv : v.isInf
              · refine ⟨v.ty, .incl (v.ty.conv v), by simp [convStep, hv], ?_⟩
                intro z hz _
                cases hz
                rfl
              · refine ⟨.float, .incl v, by simp [convStep, hv], ?_⟩
                intro z hz hzf
                cases hz
                rw [hv] at hzf
                cases hzf
        obtain ⟨u, l', hu, huz⟩ := hstep
        have hclash : convLoop none (some u) ls = .error .type := by
          by_cases h1 : u = x.ty
          · have h2 : u ≠ y.ty := by
              rw [h1, ofType_ty hs, ofType_ty ht]
              exact hne
            apply convLoop_clash (ofType_fin ht) h2
            rcases List.mem_cons.mp hy with h | h
            · exact absurd (huz y h (ofType_fin ht)) h2
            · exact h
          · apply convLoop_clash (ofType_fin hs) h1
            rcases List.mem_cons.mp hx with h | h
            · exact absurd (huz x h (ofType_fin hs)) h1
            · exact h
        simp [convLoop, hu, bind, Except.bind, hclash]
  simp [setVset, toList, bind, Except.bind, hloop]

/-- The half-open interval `[(0,), 1, 2.5]` without a type mixes an integer and a
float. -/
example : init (.set (.list [.excl (.int 0), .incl (.int 1), .incl (.flt (5/2))])) .none
    = .error .type :=
  C74_mixed_refused (x := .int 1) (y := .flt (5/2)) (s := .int) (t := .float) (by simp) (by simp)
    (by simp [Spec.OfType]) (by simp [Spec.OfType]) (by decide)

/-! ### Where the documentation is contradicted -/

/-- C74 in full: the documented declarations (rv.py:61-68, variable.py:87-93,
137-157) are accepted, with the type given: a type alone (for variables and random
variables), and a nonempty set of values of a discrete type as a list, set, range or
array, with or without that type. -/
def C74_claim : Prop :=
  (∀ t, ∃ v, init .none (.ty t) = .ok v ∧ v.ty = t) ∧
  (∀ t, ∃ v, rvInit .none (.ty t) = .ok v ∧ v.ty = t) ∧
  ∀ t, t ≠ .float → ∀ vt, Spec.Types t vt → ∀ xs : List Num, xs ≠ [] →
    (∀ v ∈ xs, Spec.OfType t v) → ∀ s : SetArg,
    (s = .set xs ∨ s = .array xs ∨ s = .list (xs.map .incl)) →
    ∃ v, init (.set s) vt = .ok v ∧ v.ty = t

/-- A random variable cannot be declared by its type alone, against its own
documented example (rv.py:38): the type is taken for the set and refused. -/
theorem C74_random_type_refused (t : Ty) : rvInit .none (.ty t) = .error .assertion := rfl

/-- Nor can the type of a variable be given in the position of the set. -/
theorem C74_type_position_refused (t : Ty) : init (.ty t) .none = .error .assertion := rfl

/-- Arrays of several values are refused by the constructor, whatever the type:
their truth value is asked. -/
theorem C74_array_refused (xs : List Num) (h : 2 ≤ xs.length) (vt : Arg)
    (hv : vt = .none ∨ ∃ t, vt = .ty t) :
    init (.set (.array xs)) vt = .error .value ∧ init vt (.set (.array xs)) = .error .value := by
  have htr : (Arg.set (.array xs)).truth = .error .value := by
    match xs, h with
    | _ :: _ :: _, _ => rfl
  have h1 : init (.set (.array xs)) vt = .error .value := by
    rcases hv with rfl | ⟨t, rfl⟩
    · simp [init, Arg.isSet, bind, Except.bind, truth_none, htr]
    · obtain ⟨v, h1, -⟩ := vtypeNew_ty t
      simp [init, Arg.isSet, bind, Except.bind, truth_ty, htr, h1]
  exact ⟨h1, (C74_swapped _ _ hv).trans h1⟩

theorem C74_claim_fails : ¬ C74_claim := by
  rintro ⟨-, h, -⟩
  obtain ⟨v, hv, -⟩ := h .bool
  cases hv

/-- Both parts of the claim fail: arrays of values are refused too. -/
theorem C74_claim_fails_array : ¬ ∀ vt, Spec.Types .int vt →
    ∃ v, init (.set (.array [.int 0, .int 1])) vt = .ok v ∧ v.ty = .int := by
  intro h
  obtain ⟨v, hv, -⟩ := h .none (.inl rfl)
  rw [(C74_array_refused [.int 0, .int 1] (by simp) .none (.inl rfl)).1] at hv
  cases hv

/-- Assigned afterwards, an array of finite values is accepted, in increasing order
and converted to the type of the variable. -/
theorem C74_array_assigned (w : Var) (ht : w.ty ≠ .float) {xs : List Num} (hne : xs ≠ [])
    (hx : ∀ v ∈ xs, Spec.Finite v) :
    ∃ v, ∃ ys zs : List Num, w.assignSet (.set (.array xs)) = .ok v ∧ Spec.Discrete v w.ty zs ∧
      List.Forall₂ (Spec.Converted w.ty) ys zs ∧ ys.Perm xs ∧
      ys.Pairwise fun a b => a.value ≤ b.value := by
  have hp := sortNum_perm xs
  have hne' : sortNum xs ≠ [] := by
    intro h
    rw [h] at hp
    exact hne (List.nil_perm.mp hp)
  have hfin : ∀ v ∈ sortNum xs, v.isInf = false := by
    intro v hv
    have := hx v (hp.mem_iff.mp hv)
    cases v <;> simp_all [Num.isInf, Spec.Finite]
  have hmap : ((sortNum xs).map Lim.incl).map (convLim w.ty) =
      ((sortNum xs).map w.ty.conv).map Lim.incl := by
    rw [List.map_map, List.map_map]
    apply List.map_congr_left
    intro v hv
    simp [convLim, hfin v hv]
  obtain ⟨v, hv, hd⟩ := evalLims_discrete ht (xs := (sortNum xs).map w.ty.conv)
    (by simpa using hne')
  refine ⟨v, sortNum xs, _, ?_, hd, conv_all w.ty hfin, hp, sortNum_sorted xs⟩
  simp only [Var.assignSet, setVset, toList, bind, Except.bind, convLoop_own, hmap, hv]

example : ∃ v, ∃ ys zs : List Num,
    (defaultVar .int).assignSet (.set (.array [.flt (7/2), .flt 1])) = .ok v ∧
    Spec.Discrete v .int zs ∧ List.Forall₂ (Spec.Converted .int) ys zs ∧
    ys.Perm [.flt (7/2), .flt 1] ∧ ys.Pairwise fun a b => a.value ≤ b.value :=
  C74_array_assigned (defaultVar .int) (by decide) (by simp) (by simp [Spec.Finite])

/-- Assigned afterwards, two limits make a continuous variable the one over the
interval between them. -/
theorem C74_interval_assigned (w : Var) (ht : w.ty = .float) (a b : Lim) :
    ∃ v, w.assignSet (.set (.list [a, b])) = .ok v ∧ Spec.Continuous v a b := by
  rw [Var.assignSet, ht]
  exact setVset_float rfl

example : ∃ v, (defaultVar .float).assignSet (.set (.list [.incl (.int 3), .excl (.int 1)])) =
    .ok v ∧ v.vset = [.excl (.flt 1), .incl (.flt 3)] := ⟨_, rfl, rfl⟩

/-- The values given are those of the set: false when a type is given, two values
may become one. -/
theorem C74_values_claim_fails : ¬ ∀ (t : Ty) (xs : List Num), xs.Nodup →
    ∀ v, init (.set (.list (xs.map .incl))) (.ty t) = .ok v → v.vset.Nodup := by
  intro h
  have hwhole : ∀ (q : ℚ) (y : Num), 0 < q → q < 1 → Spec.Converted .int (.flt q) y →
      y = .int 0 := by
    rintro q y h0 h1 ⟨n, q', rfl, he, h2, -⟩
    obtain rfl := ofRat_inj (show Ext.ofRat q = Ext.ofRat q' from he)
    rw [abs_of_pos h0] at h2
    have : |n| < 1 := by exact_mod_cast lt_of_le_of_lt h2 h1
    rw [Int.abs_lt_one_iff.mp this]
  obtain ⟨v, ys, hv, hd, hc⟩ := C74_converted (t := .int) (xs := [.flt (1/5), .flt (7/10)])
    (by decide) (by simp) (by simp [Spec.Finite])
  have := h .int [.flt (1/5), .flt (7/10)] (by norm_num) v hv
  obtain ⟨y, ys', hy, hys, rfl⟩ := List.forall₂_cons_left_iff.mp hc
  obtain ⟨z, zs, hz, -, rfl⟩ := List.forall₂_cons_left_iff.mp hys
  rw [hd.vset, hwhole _ _ (by norm_num) (by norm_num) hy,
    hwhole _ _ (by norm_num) (by norm_num) hz] at this
  simp at this

/-- The list given is left as it was: false, its entries are converted in place
(variable.py:198, 208). -/
theorem C74_given_claim_fails : ¬ ∀ (t : Ty) (ls : List Lim) (v : Var),
    init (.set (.list ls)) (.ty t) = .ok v → v.raw = ls := by
  intro h
  have := h .float [.incl (.int 0), .incl (.int 1)] _ rfl
  revert this
  decide

/-- A set with an infinite limit makes a continuous variable: false without a
type, `[0, oo]` makes the integer variable over `0` and infinity, and `[-oo, 0]`
is refused. -/
theorem C74_infinite_claim_fails :
    (∃ v, init (.set (.list [.incl (.int 0), .incl (.inf false)])) .none = .ok v ∧
      v.ty = .int ∧ v.inside 1 = false) ∧
    init (.set (.list [.incl (.inf true), .incl (.int 0)])) .none = .error .type :=
  ⟨⟨_, rfl, rfl, rfl⟩, rfl⟩

/-- Without a type, integer limits of which one is exclusive are refused, in
either order. -/
theorem C74_half_open_refused (m n : ℤ) :
    init (.set (.list [.excl (.int m), .incl (.int n)])) .none = .error .type ∧
    init (.set (.list [.incl (.int m), .excl (.int n)])) .none = .error .type := ⟨rfl, rfl⟩

/-- Assigning another type to a variable makes it a variable of that type: false,
its set and its membership test stay. -/
theorem C74_retyped (v : Var) (t : Ty) :
    (v.assignType t).ty = t ∧ (v.assignType t).vset = v.vset ∧
      ∀ x, (v.assignType t).inside x = v.inside x := ⟨rfl, rfl, fun _ => rfl⟩

theorem C74_retyped_claim_fails : ¬ ∀ (v : Var) (xs : List Num), Spec.Discrete v .int xs →
    ∃ a b, Spec.Continuous (v.assignType .float) a b := by
  intro h
  obtain ⟨v, hv, hd⟩ := C74_list_partial (t := .int) (vt := .none) (xs := [.int 0, .int 1]) (by decide)
    (.inl rfl) (by simp) (by simp [Spec.OfType])
  obtain ⟨a, b, hc⟩ := h v _ hd
  have h0 := (hc.inside 0).mp (((C74_retyped v .float).2.2 0).trans
    ((hd.inside 0).mpr ⟨.int 0, by simp, by simp [Num.value]⟩))
  have h1 := (hc.inside 1).mp (((C74_retyped v .float).2.2 1).trans
    ((hd.inside 1).mpr ⟨.int 1, by simp, by simp [Num.value]⟩))
  have hmid : Spec.InInterval a b (1/2) := by
    have key : ∀ a b : Lim, Spec.Above a 0 ∧ Spec.Below b 0 → Spec.Above a 1 ∧ Spec.Below b 1 →
        Spec.Above a (1/2) ∧ Spec.Below b (1/2) := by
      rintro a b ⟨ha, -⟩ ⟨-, hb⟩
      have e0 : Ext.ofRat 0 < Ext.ofRat (1/2) := ofRat_lt.mpr (by norm_num)
      have e1 : Ext.ofRat (1/2) < Ext.ofRat 1 := ofRat_lt.mpr (by norm_num)
      constructor
      · cases a with
        | incl v => exact le_trans (show v.value ≤ _ from ha) e0.le
        | excl v => exact lt_trans (show v.value < _ from ha) e0
      · cases b with
        | incl v => exact le_trans e1.le (show _ ≤ v.value from hb)
        | excl v => exact lt_trans e1 (show _ < v.value from hb)
    unfold Spec.InInterval at *
    split
    · rename_i hle
      rw [if_pos hle] at h0 h1
      exact key a b h0 h1
    · rename_i hle
      rw [if_neg hle] at h0 h1
      exact key b a h0 h1
  have := ((C74_retyped v .float).2.2 (1/2)).symm.trans ((hc.inside (1/2)).mpr hmid)
  obtain ⟨y, hy, he⟩ := (hd.inside (1/2)).mp this
  simp only [List.mem_cons, List.not_mem_nil, or_false] at hy
  have hinj : ∀ p q : ℚ, Ext.ofRat p = Ext.ofRat q → p = q := fun p q h => by
    simpa [Ext.ofRat] using h
  rcases hy with rfl | rfl
  · have := hinj _ _ (show Ext.ofRat ((0 : ℤ) : ℚ) = _ from he)
    norm_num at this
  · have := hinj _ _ (show Ext.ofRat ((1 : ℤ) : ℚ) = _ from he)
    norm_num at this

theorem evalLims_kind {t : Ty} {vs : List Lim} {v : Var} (h : evalLims t vs = .ok v) :
    v.ty = t ∧ v.kind = t := by
  unfold evalLims at h
  split at h
  · split at h
    · split at h <;> cases h <;> exact ⟨rfl, rfl⟩
    · cases h
  · split at h
    · cases h
    · split at h
      · cases h
        exact ⟨rfl, rfl⟩
      · cases h

theorem setVset_kind {own : Option Ty} {arg : Arg} {v : Var} (h : setVset own arg = .ok v) :
    v.kind = v.ty := by
  simp only [setVset, bind, Except.bind] at h
  split at h
  · cases h
  · split at h
    · cases h
    · split at h
      · have := evalLims_kind h
        rw [this.1, this.2]
      · cases h

theorem finite_iff (v : Num) :
    Spec.Finite v ↔ v.value ≠ ⊥ ∧ v.value ≠ ((⊤ : WithTop ℚ) : Ext) := by
  have hb : ∀ q, Ext.ofRat q ≠ ⊥ := fun q => WithBot.coe_ne_bot
  have ht : ∀ q, Ext.ofRat q ≠ ((⊤ : WithTop ℚ) : Ext) := fun q h =>
    WithTop.coe_ne_top (WithBot.coe_injective h)
  cases v with
  | inf s => cases s <;> simp [Spec.Finite, Num.value]
  | bool b => exact ⟨fun _ => ⟨hb _, ht _⟩, fun _ s h => by cases h⟩
  | int b => exact ⟨fun _ => ⟨hb _, ht _⟩, fun _ s h => by cases h⟩
  | flt b => exact ⟨fun _ => ⟨hb _, ht _⟩, fun _ s h => by cases h⟩

/-- C74 (finiteness): `isfinite` of continuous variables tells whether both limits
are finite. -/
theorem C74_isfinite_interval (a b : Lim) (v : Var)
    (hv : init (.set (.list [a, b])) (.ty .float) = .ok v) :
    v.isFinite = true ↔ Spec.Finite a.num ∧ Spec.Finite b.num := by
  obtain ⟨w, hw, hc⟩ := C74_interval a b
  rw [hv] at hw
  cases hw
  obtain ⟨own, -, ho, hi⟩ := init_set (t := .float) (vt := .ty .float) (.inr rfl)
    (s := .list [a, b]) rfl
  rw [hi] at hv
  have hk : v.kind = .float := (setVset_kind hv).trans hc.ty
  have htop : ∀ e : Ext, e ≤ ((⊤ : WithTop ℚ) : Ext) := fun e => le_top
  simp only [Var.isFinite, hk, if_true, Bool.and_eq_true, decide_eq_true_eq, hc.lower, hc.upper,
    finite_iff]
  generalize a.num.value = p
  generalize b.num.value = q
  constructor
  · rintro ⟨⟨h1, -⟩, -, h4⟩
    refine ⟨⟨?_, ?_⟩, ?_, ?_⟩
    · rintro rfl
      exact h1 (min_eq_left bot_le)
    · rintro rfl
      exact h4 (max_eq_left (htop _))
    · rintro rfl
      exact h1 (min_eq_right bot_le)
    · rintro rfl
      exact h4 (max_eq_right (htop _))
  · rintro ⟨⟨h1, h2⟩, h3, h4⟩
    refine ⟨⟨?_, ?_⟩, ?_, ?_⟩
    · rcases min_choice p q with h | h <;> rw [h] <;> assumption
    · rcases min_choice p q with h | h <;> rw [h] <;> assumption
    · rcases max_choice p q with h | h <;> rw [h] <;> assumption
    · rcases max_choice p q with h | h <;> rw [h] <;> assumption

example : ∃ v, init (.set (.list [.incl (.int 0), .excl (.inf false)])) (.ty .float) = .ok v ∧
    v.isFinite = false := ⟨_, rfl, rfl⟩

/-- `isfinite`, documented as telling whether the range is finite
(variable.py:290-292), is false of every discrete variable over finitely many
finite values. -/
theorem C74_isfinite_discrete {t : Ty} (ht : t ≠ .float) {vt : Arg} (hvt : Spec.Types t vt)
    {xs : List Num} (hne : xs ≠ []) (hx : ∀ v ∈ xs, Spec.OfType t v) {v : Var}
    (hv : init (.set (.list (xs.map .incl))) vt = .ok v) : v.isFinite = false := by
  obtain ⟨w, hw, hd⟩ := C74_list_partial ht hvt hne hx
  rw [hv] at hw
  cases hw
  obtain ⟨own, -, -, hi⟩ := init_set hvt (s := .list (xs.map .incl))
    (by cases xs with
      | nil => exact absurd rfl hne
      | cons x xs => rfl)
  rw [hi] at hv
  have hk : v.kind = t := (setVset_kind hv).trans hd.ty
  simp [Var.isFinite, hk, ht]

end Probayes.VarInit
