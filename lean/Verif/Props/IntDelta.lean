/-
C105: values are converted to the type of a variable.
C106: deltas of integer variables of any size.
-/
import Mathlib.Probability.BorelCantelli
import Verif.Model.IntDelta
import Verif.Props.RVDraw

namespace Probayes

open VarInit (Ty Num)
open MeasureTheory ProbabilityTheory Filter

/-! ### C105 -/

/-- The number meant: True is 1 and False 0. -/
def Spec.numeric : Num → ℚ
  | .bool b => if b then 1 else 0
  | .int n => n
  | .flt q => q
  | .inf _ => 0

/-- The whole number next to `q` on the side of zero. -/
def Spec.Rounds (w : ℤ) (q : ℚ) : Prop := |(w : ℚ)| ≤ |q| ∧ |q| < |(w : ℚ)| + 1 ∧ 0 ≤ w * q

/-- What becomes of `q` in each type. -/
def Spec.Becomes (t : Ty) (q : ℚ) (x : Num) : Prop :=
  match t with
  | .bool => x = .bool (q ≠ 0)
  | .int => ∃ w, x = .int w ∧ Spec.Rounds w q
  | .float => x = .flt q

/-- The numbers held, in order. -/
def Spec.numbersHeld : Held → List Num
  | .scalar x => [x]
  | .array _ xs => xs
  | .list xs => xs
  | .tuple xs => xs
  | .set xs => xs

/-- Values as they come: no infinities, containers that are not empty, arrays of their type. -/
def Spec.Common (v : Held) : Prop :=
  (∀ x ∈ Spec.numbersHeld v, x.isInf = false) ∧ Spec.numbersHeld v ≠ [] ∧
    match v with
    | .array t xs => ∀ x ∈ xs, x.ty = t
    | _ => True

/-- All numbers of one type, and no set. -/
def Spec.Uniform (v : Held) : Prop :=
  (∃ t, ∀ x ∈ Spec.numbersHeld v, x.ty = t) ∧ ∀ xs, v ≠ .set xs

/-- C105 as intended: the values are converted one by one. -/
def C105_claim : Prop :=
  ∀ v t, Spec.Common v → ∃ w, revtype v (some t) = .ok w ∧
    List.Forall₂ (fun x y => Spec.Becomes t (Spec.numeric x) y) (Spec.numbersHeld v) (Spec.numbersHeld w)

theorem trunc_rounds (q : ℚ) : Spec.Rounds (VarInit.trunc q) q := by
  unfold VarInit.trunc Spec.Rounds
  split
  · rename_i h
    have h1 : 0 ≤ ⌊q⌋ := Int.floor_nonneg.2 h
    have h2 : (0 : ℚ) ≤ ⌊q⌋ := by exact_mod_cast h1
    rw [abs_of_nonneg h2, abs_of_nonneg h]
    exact ⟨Int.floor_le q, Int.lt_floor_add_one q, mul_nonneg h2 h⟩
  · rename_i h
    push Not at h
    have h1 : ⌈q⌉ ≤ 0 := Int.ceil_le.2 (by exact_mod_cast h.le)
    have h2 : (⌈q⌉ : ℚ) ≤ 0 := by exact_mod_cast h1
    rw [abs_of_nonpos h2, abs_of_neg h]
    refine ⟨by linarith [Int.le_ceil q], by linarith [Int.ceil_lt_add_one q], mul_nonneg_of_nonpos_of_nonpos h2 h.le⟩

theorem rounds_unique {w w' : ℤ} {q : ℚ} (h : Spec.Rounds w q) (h' : Spec.Rounds w' q) : w = w' := by
  obtain ⟨a1, a2, a3⟩ := h
  obtain ⟨b1, b2, b3⟩ := h'
  rcases lt_trichotomy q 0 with hq | hq | hq
  · have e : (w : ℚ) ≤ 0 := by nlinarith
    have e' : (w' : ℚ) ≤ 0 := by nlinarith
    rw [abs_of_nonpos e, abs_of_neg hq] at a1 a2
    rw [abs_of_nonpos e', abs_of_neg hq] at b1 b2
    have c1 : (w : ℚ) < w' + 1 := by linarith
    have c2 : (w' : ℚ) < w + 1 := by linarith
    have c1 : w < w' + 1 := by exact_mod_cast c1
    have c2 : w' < w + 1 := by exact_mod_cast c2
    omega
  · rw [hq, abs_zero] at a1 b1
    have e := abs_eq_zero.1 (le_antisymm a1 (abs_nonneg _))
    have e' := abs_eq_zero.1 (le_antisymm b1 (abs_nonneg _))
    exact_mod_cast e.trans e'.symm
  · have e : 0 ≤ (w : ℚ) := by nlinarith
    have e' : 0 ≤ (w' : ℚ) := by nlinarith
    rw [abs_of_nonneg e, abs_of_pos hq] at a1 a2
    rw [abs_of_nonneg e', abs_of_pos hq] at b1 b2
    have c1 : (w : ℚ) < w' + 1 := by linarith
    have c2 : (w' : ℚ) < w + 1 := by linarith
    have c1 : w < w' + 1 := by exact_mod_cast c1
    have c2 : w' < w + 1 := by exact_mod_cast c2
    omega

theorem rounds_whole (n : ℤ) : Spec.Rounds n n :=
  ⟨le_refl _, by linarith, mul_self_nonneg _⟩

theorem conv_becomes (t : Ty) (x : Num) (h : x.isInf = false) : Spec.Becomes t (Spec.numeric x) (t.conv x) := by
  cases x with
  | inf b => simp [Num.isInf] at h
  | bool b =>
    cases t
    · cases b <;> simp [Spec.Becomes, Spec.numeric, Ty.conv]
    · refine ⟨_, rfl, ?_⟩
      have := rounds_whole (if b then 1 else 0)
      simpa [Spec.numeric, apply_ite] using this
    · rfl
  | int n =>
    cases t
    · simp [Spec.Becomes, Spec.numeric, Ty.conv]
    · exact ⟨_, rfl, rounds_whole n⟩
    · rfl
  | flt q =>
    cases t
    · by_cases hq : q = 0 <;> simp [Spec.Becomes, Spec.numeric, Ty.conv, hq]
    · exact ⟨_, rfl, trunc_rounds q⟩
    · rfl

theorem conv_ty (t : Ty) (x : Num) (h : x.isInf = false) : (t.conv x).ty = t ∧ (t.conv x).isInf = false := by
  cases x with
  | inf b => simp [Num.isInf] at h
  | bool b => cases t <;> exact ⟨rfl, rfl⟩
  | int n => cases t <;> exact ⟨rfl, rfl⟩
  | flt q => cases t <;> exact ⟨rfl, rfl⟩

theorem becomes_self (t : Ty) (x : Num) (h : x.isInf = false) (ht : x.ty = t) : Spec.Becomes t (Spec.numeric x) x := by
  subst ht
  cases x with
  | inf b => simp [Num.isInf] at h
  | bool b => cases b <;> simp [Spec.Becomes, Spec.numeric, Num.ty]
  | int n => exact ⟨n, rfl, rounds_whole n⟩
  | flt q => rfl

theorem promote_uniform (t : Ty) (xs : List Num) (hne : xs ≠ []) (hf : ∀ x ∈ xs, x.isInf = false)
    (h : ∀ x ∈ xs, x.ty = t) : VarInit.promote xs = some t := by
  have h0 : xs.any (·.isInf) = false := by
    simp only [List.any_eq_false]; intro x hx; simp [hf x hx]
  have he : xs.isEmpty = false := by cases xs <;> simp_all
  have hany : ∀ t' : Ty, (xs.any fun x => decide (x.ty = t')) = decide (t = t') := by
    intro t'
    by_cases e : t = t'
    · obtain ⟨x, hx⟩ := List.exists_mem_of_ne_nil xs hne
      simp only [e, decide_true, List.any_eq_true, decide_eq_true_eq]
      exact ⟨x, hx, by rw [h x hx, e]⟩
    · simp only [e, decide_false, List.any_eq_false, decide_eq_true_eq]
      intro x hx; rw [h x hx]; exact e
  simp only [VarInit.promote, h0, he, Bool.false_or, hany]
  cases t <;> simp

theorem evalTy_uniform (v : Held) (t : Ty) (hf : Spec.Common v) (h : ∀ x ∈ Spec.numbersHeld v, x.ty = t) :
    v.evalTy = some t := by
  obtain ⟨h1, h2, h3⟩ := hf
  cases v with
  | scalar x =>
    simp only [Spec.numbersHeld, List.mem_singleton, forall_eq] at h h1
    simp [Held.evalTy, h1, h]
  | array t' xs =>
    obtain ⟨x, hx⟩ := List.exists_mem_of_ne_nil xs h2
    rw [Held.evalTy, ← h3 x hx, h x hx]
  | list xs => exact promote_uniform t xs h2 h1 h
  | tuple xs => exact promote_uniform t xs h2 h1 h
  | set xs => exact promote_uniform t xs h2 h1 h

theorem forall2_map {α β : Type} (R : α → β → Prop) (f : α → β) (xs : List α) (h : ∀ x ∈ xs, R x (f x)) :
    List.Forall₂ R xs (xs.map f) := by
  rw [List.forall₂_map_right_iff, List.forall₂_same]
  exact h

/-- C105: numbers, arrays and lists or tuples of numbers of one type are converted one by one: to
False only from zero, to the whole number next to them on the side of zero, or to the same
number as a float.  The result has the type asked for, and a single number stays one.  Missing of
the claim: containers of mixed types (`C105_mixed`) and sets (`C105_sets`). -/
theorem C105_converts_partial (v : Held) (t : Ty) (hf : Spec.Common v) (hu : Spec.Uniform v) :
    ∃ w, revtype v (some t) = .ok w ∧
      List.Forall₂ (fun x y => Spec.Becomes t (Spec.numeric x) y) (Spec.numbersHeld v) (Spec.numbersHeld w) ∧
      (∀ y ∈ Spec.numbersHeld w, y.ty = t) ∧ ((∃ x, v = .scalar x) ↔ ∃ y, w = .scalar y) ∧
      ((∀ x ∈ Spec.numbersHeld v, x.ty = t) → w = v) := by
  obtain ⟨⟨t', ht'⟩, hset⟩ := hu
  have he := evalTy_uniform v t' hf ht'
  by_cases e : t' = t
  · subst e
    refine ⟨v, by simp [revtype, he], ?_, ht', Iff.rfl, fun _ => rfl⟩
    rw [List.forall₂_same]
    exact fun x hx => becomes_self _ x (hf.1 x hx) (ht' x hx)
  · have hne : v.evalTy ≠ some t := by rw [he]; simpa using e
    have habs : ¬ ∀ x ∈ Spec.numbersHeld v, x.ty = t := by
      intro h
      obtain ⟨x, hx⟩ := List.exists_mem_of_ne_nil _ hf.2.1
      exact e ((ht' x hx).symm.trans (h x hx))
    have hall : ∀ xs : List Num, (∀ x ∈ xs, x.isInf = false) →
        List.Forall₂ (fun x y => Spec.Becomes t (Spec.numeric x) y) xs (xs.map t.conv) ∧
          ∀ y ∈ xs.map t.conv, y.ty = t := by
      intro xs h
      refine ⟨forall2_map _ _ _ fun x hx => conv_becomes t x (h x hx), ?_⟩
      intro y hy
      obtain ⟨x, hx, rfl⟩ := List.mem_map.1 hy
      exact (conv_ty t x (h x hx)).1
    cases v with
    | scalar x =>
      obtain ⟨a, b⟩ := hall [x] hf.1
      exact ⟨.scalar (t.conv x), by simp [revtype, hne], a, b, by simp, fun h => absurd h habs⟩
    | array t'' xs =>
      obtain ⟨a, b⟩ := hall xs hf.1
      exact ⟨.array t (xs.map t.conv), by simp [revtype, hne], a, b, by simp, fun h => absurd h habs⟩
    | list xs =>
      obtain ⟨a, b⟩ := hall xs hf.1
      exact ⟨.array t (xs.map t.conv), by simp [revtype, hne], a, b, by simp, fun h => absurd h habs⟩
    | tuple xs =>
      obtain ⟨a, b⟩ := hall xs hf.1
      exact ⟨.array t (xs.map t.conv), by simp [revtype, hne], a, b, by simp, fun h => absurd h habs⟩
    | set xs => exact absurd rfl (hset xs)

/-- C105: converting again changes nothing. -/
theorem C105_twice (v w : Held) (t : Ty) (hf : Spec.Common v) (h : revtype v (some t) = .ok w) :
    revtype w (some t) = .ok w := by
  by_cases e : v.evalTy = some t
  · simp only [revtype, e, if_true, Except.ok.injEq] at h
    subst h
    simp [revtype, e]
  · have hw : w.evalTy = some t := by
      cases v with
      | scalar x =>
        simp only [revtype, e, if_false, Except.ok.injEq] at h
        subst h
        have := conv_ty t x (hf.1 x (by simp [Spec.numbersHeld]))
        simp [Held.evalTy, this]
      | array t'' xs =>
        simp only [revtype, e, if_false, Except.ok.injEq] at h
        subst h; rfl
      | list xs =>
        simp only [revtype, e, if_false, Except.ok.injEq] at h
        subst h; rfl
      | tuple xs =>
        simp only [revtype, e, if_false, Except.ok.injEq] at h
        subst h; rfl
      | set xs =>
        simp only [revtype, e, if_false] at h
        split at h
        · rename_i e'
          subst e'
          simp only [Except.ok.injEq] at h
          subst h; rfl
        · simp at h
    simp [revtype, hw]

/-- C105: numbers that the type can hold are the same numbers after the conversion, also in
containers of mixed types. -/
theorem C105_exact (v : Held) (t : Ty) (hf : Spec.Common v) (hset : ∀ xs, v ≠ .set xs)
    (h : ∀ x ∈ Spec.numbersHeld v, match t with
      | .bool => Spec.numeric x = 0 ∨ Spec.numeric x = 1
      | .int => ∃ n : ℤ, Spec.numeric x = n
      | .float => True) :
    ∃ w, revtype v (some t) = .ok w ∧ (Spec.numbersHeld w).map Spec.numeric = (Spec.numbersHeld v).map Spec.numeric := by
  by_cases e : v.evalTy = some t
  · exact ⟨v, by simp [revtype, e], rfl⟩
  · have key : ∀ x ∈ Spec.numbersHeld v, Spec.numeric (t.conv x) = Spec.numeric x := by
      intro x hx
      have h1 := h x hx
      have h2 := conv_becomes t x (hf.1 x hx)
      cases t with
      | bool =>
        simp only [Spec.Becomes] at h2
        rw [h2]
        generalize Spec.numeric x = q at h1 ⊢
        rcases h1 with h1 | h1 <;> simp [h1, Spec.numeric]
      | int =>
        obtain ⟨w, hw, hr⟩ := h2
        obtain ⟨n, hn⟩ := h1
        rw [hn] at hr
        rw [hw, hn, Spec.numeric, rounds_unique hr (rounds_whole n)]
      | float =>
        simp only [Spec.Becomes] at h2
        rw [h2]; rfl
    have hm : ∀ xs : List Num, (∀ x ∈ xs, Spec.numeric (t.conv x) = Spec.numeric x) →
        (xs.map t.conv).map Spec.numeric = xs.map Spec.numeric := by
      intro xs hx
      rw [List.map_map]
      exact List.map_congr_left hx
    cases v with
    | scalar x => exact ⟨.scalar (t.conv x), by simp [revtype, e], hm [x] key⟩
    | array t'' xs => exact ⟨.array t (xs.map t.conv), by simp [revtype, e], hm xs key⟩
    | list xs => exact ⟨.array t (xs.map t.conv), by simp [revtype, e], hm xs key⟩
    | tuple xs => exact ⟨.array t (xs.map t.conv), by simp [revtype, e], hm xs key⟩
    | set xs => exact absurd rfl (hset xs)

/-- C105: a list of mixed numbers whose common type is the one asked for stays as it is. -/
theorem C105_mixed : revtype (.list [.bool true, .int 2]) (some .int) = .ok (.list [.bool true, .int 2]) := by
  have : (Held.list [.bool true, .int 2]).evalTy = some .int := by
    simp [Held.evalTy, VarInit.promote, Num.isInf, Num.ty]
  simp [revtype, this]

/-- C105: a set of another type is refused, or collapses to True. -/
theorem C105_sets (xs : List Num) (t t' : Ty) (hne : xs ≠ []) (hf : ∀ x ∈ xs, x.isInf = false)
    (h : ∀ x ∈ xs, x.ty = t') (ht : t' ≠ t) :
    revtype (.set xs) (some t) = if t = .bool then .ok (.scalar (.bool true)) else .error .type := by
  have he : (Held.set xs).evalTy = some t' := promote_uniform t' xs hne hf h
  have hx : xs.isEmpty = false := by cases xs <;> simp_all
  simp only [revtype, he, Option.some.injEq, ht, if_false, hx]
  rfl

/-- C105 as intended fails: sets of integers cannot be converted to floats. -/
theorem C105_claim_fails : ¬ C105_claim := by
  intro h
  obtain ⟨w, hw, -⟩ := h (.set [.int 1, .int 2]) .float
    ⟨by simp [Spec.numbersHeld, Num.isInf], by simp [Spec.numbersHeld], trivial⟩
  rw [C105_sets [.int 1, .int 2] .float .int (by simp) (by simp [Num.isInf]) (by simp [Num.ty]) (by simp)] at hw
  simp at hw

/-- A case of `C105_converts_partial`. -/
example : Spec.Common (.list [.flt (-3 / 2), .flt 0, .flt (7 / 2)]) ∧
    Spec.Uniform (.list [.flt (-3 / 2), .flt 0, .flt (7 / 2)]) ∧
    revtype (.list [.flt (-3 / 2), .flt 0, .flt (7 / 2)]) (some .int) = .ok (.array .int [.int (-1), .int 0, .int 3]) := by
  have hf : Spec.Common (.list [.flt (-3 / 2), .flt 0, .flt (7 / 2)]) :=
    ⟨by simp [Spec.numbersHeld, Num.isInf], by simp [Spec.numbersHeld], trivial⟩
  have hu : ∀ x ∈ Spec.numbersHeld (.list [.flt (-3 / 2), .flt 0, .flt (7 / 2)]), x.ty = .float := by
    simp [Spec.numbersHeld, Num.ty]
  refine ⟨hf, ⟨⟨_, hu⟩, by simp⟩, ?_⟩
  have he := evalTy_uniform _ _ hf hu
  simp only [revtype, he, Option.some.injEq, reduceCtorEq, if_false, List.map_cons, List.map_nil, Ty.conv]
  norm_num [VarInit.trunc]

/-! ### C106 -/

/-- C106 as intended: a delta is undone by the opposite delta. -/
def C106_claim : Prop :=
  ∀ (x : IntVar) (v : ℤ) (d : ℚ) (u u' : ℝ), d ≠ 0 →
    x.apply (x.apply v (some (.scalar d)) (some false) u) (some (.scalar (-d))) (some false) u' = v

theorem intSum_eq (v : ℤ) (d : ℚ) : intSum v d = VarInit.trunc (v + d) := by
  have h : (Held.scalar (.flt ((v : ℚ) + d))).evalTy = some .float := rfl
  simp [intSum, revtype, h, Ty.conv]

theorem apply_scalar (x : IntVar) (v : ℤ) (d : ℚ) (u : ℝ) (hd : d ≠ 0) :
    x.apply v (some (.scalar d)) (some false) u = VarInit.trunc (v + d) := by
  simp [IntVar.apply, IntVar.amount, anyOrDefault, hd, intSum_eq]

theorem trunc_floor {q : ℚ} (h : 0 ≤ q) : VarInit.trunc q = ⌊q⌋ := if_pos h

/-- C106: a delta that is a whole number is added, and clipped to the limits when bounded. -/
theorem C106_whole (x : IntVar) (v n : ℤ) (u : ℝ) (hn : n ≠ 0) :
    x.apply v (some (.scalar n)) (some false) u = v + n ∧
    x.apply v (some (.scalar n)) (some true) u = max x.lo (min x.hi (v + n)) := by
  have h : (n : ℚ) ≠ 0 := by exact_mod_cast hn
  have e : intSum v (n : ℚ) = v + n := by
    rw [intSum_eq]
    have := rounds_unique (trunc_rounds ((v + n : ℤ) : ℚ)) (rounds_whole (v + n))
    simpa using this
  constructor <;> simp [IntVar.apply, IntVar.amount, anyOrDefault, hn, e]

/-- C106: a delta of any size moves to the whole number next to the sum on the side of zero, for
a single value and for each value of an array. -/
theorem C106_rounds (x : IntVar) (d : ℚ) (u : ℝ) (hd : d ≠ 0) :
    (∀ v : ℤ, Spec.Rounds (x.apply v (some (.scalar d)) (some false) u) (v + d)) ∧
    ∀ vs : List ℤ, List.Forall₂ (fun (v w : ℤ) => Spec.Rounds w (v + d)) vs
      (x.applyAll vs (some (.scalar d)) (some false) u) := by
  refine ⟨fun v => by rw [apply_scalar x v d u hd]; exact trunc_rounds _, fun vs => ?_⟩
  have : x.applyAll vs (some (.scalar d)) (some false) u = vs.map fun v : ℤ => VarInit.trunc (v + d) := by
    simp [IntVar.applyAll, IntVar.amount, anyOrDefault, hd, intSum_eq]
  rw [this]
  exact forall2_map _ _ _ fun v _ => trunc_rounds _

/-- C106: bounded moves stay within the limits, whatever the delta. -/
theorem C106_bounded (x : IntVar) (v : ℤ) (delta : Option AnyDelta) (u : ℝ) (h : x.lo ≤ v ∧ v ≤ x.hi) :
    x.lo ≤ x.apply v delta (some true) u ∧ x.apply v delta (some true) u ≤ x.hi := by
  unfold IntVar.apply
  cases x.amount delta u with
  | none => exact h
  | some d =>
    simp only [Option.getD_some, if_true]
    constructor
    · exact le_max_left _ _
    · exact max_le (h.1.trans h.2) (min_le_left _ _)

/-- C106: exactly the deltas that are whole numbers are undone by the opposite delta at every
value. -/
theorem C106_reversible_iff (x : IntVar) (d : ℚ) (hd : d ≠ 0) :
    (∀ (v : ℤ) (u u' : ℝ),
      x.apply (x.apply v (some (.scalar d)) (some false) u) (some (.scalar (-d))) (some false) u' = v) ↔
    ∃ n : ℤ, d = n := by
  constructor
  · intro h
    by_contra hno
    have hf : 0 < Int.fract d := by
      rcases (Int.fract_nonneg d).lt_or_eq with h' | h'
      · exact h'
      · exact absurd ⟨⌊d⌋, by have := Int.self_sub_floor d; rw [← h'] at this; linarith⟩ hno
    have hf1 := Int.fract_lt_one d
    obtain ⟨k, hk⟩ : ∃ k : ℤ, |d| ≤ k := ⟨⌈|d|⌉, Int.le_ceil _⟩
    have hk0 : (0 : ℚ) ≤ k := (abs_nonneg d).trans hk
    have hdk := neg_abs_le d
    have := h (k + 1) 0 0
    rw [apply_scalar x _ d 0 hd, apply_scalar x _ (-d) 0 (by simpa using hd)] at this
    have e1 : VarInit.trunc (((k + 1 : ℤ) : ℚ) + d) = k + 1 + ⌊d⌋ := by
      rw [trunc_floor (by push_cast; linarith), Int.floor_intCast_add]
    rw [e1] at this
    have e2 : (((k + 1 + ⌊d⌋ : ℤ) : ℚ) + -d) = ((k + 1 : ℤ) : ℚ) - Int.fract d := by
      have := Int.self_sub_floor d
      push_cast
      linarith
    rw [e2, trunc_floor (by push_cast; linarith)] at this
    have h2 := Int.floor_eq_iff.1 this
    push_cast at h2
    linarith
  · rintro ⟨n, rfl⟩ v u u'
    have hn : n ≠ 0 := by exact_mod_cast hd
    rw [(C106_whole x v n u hn).1]
    have := (C106_whole x (v + n) (-n) u' (by simpa using hn)).1
    push_cast at this
    rw [this]
    ring

/-- C106 as intended fails: half a step forward and back leads from 1 to 0. -/
theorem C106_claim_fails : ¬ C106_claim := by
  intro h
  have := (C106_reversible_iff ⟨none, false, false, 2, 0, 1⟩ (1 / 2) (by norm_num)).1
    fun v u u' => h _ v (1 / 2) u u' (by norm_num)
  obtain ⟨n, hn⟩ := this
  have h1 : (1 : ℚ) = 2 * n := by linarith
  have h2 : (1 : ℤ) = 2 * n := by exact_mod_cast h1
  omega

section
variable (x : IntVar) (d : ℚ) (h0 : 0 < d) (h1 : d < 1) (delta : Option AnyDelta)
  (hdelta : (delta = some (.orand d) ∧ x.scale = false) ∨ (delta = none ∧ x.delta = some (.orand d)))

include h0 h1 hdelta

theorem orand_apply (v : ℤ) (u : ℝ) : x.apply v delta (some false) u =
    if 0 ≤ v then (if u > 1 / 2 then v else max 0 (v - 1)) else (if u > 1 / 2 then v + 1 else v) := by
  have ha : x.amount delta u = some (if u > 1 / 2 then d else -d) := by
    rcases hdelta with ⟨rfl, hs⟩ | ⟨rfl, hs⟩
    · simp [IntVar.amount, anyOrDefault, hs]
    · simp [IntVar.amount, anyOrDefault, hs]
  simp only [IntVar.apply, ha, Option.getD_some, Bool.false_eq_true, if_false, intSum_eq]
  have key : ∀ w : ℤ, ∀ q : ℚ, Spec.Rounds w q → VarInit.trunc q = w :=
    fun w q h => rounds_unique (trunc_rounds q) h
  by_cases hv : 0 ≤ v
  · have hv' : (0 : ℚ) ≤ v := by exact_mod_cast hv
    rw [if_pos hv]
    split
    · apply key
      have a2 : (0 : ℚ) ≤ v + d := by linarith
      refine ⟨?_, ?_, mul_nonneg hv' a2⟩ <;> rw [abs_of_nonneg hv', abs_of_nonneg a2] <;> linarith
    · apply key
      rcases hv.lt_or_eq with hv1 | hv1
      · have hv2 : (1 : ℚ) ≤ v := by exact_mod_cast hv1
        rw [max_eq_right (by omega)]
        have a1 : (0 : ℚ) ≤ v - 1 := by linarith
        have a2 : (0 : ℚ) ≤ v + -d := by linarith
        refine ⟨?_, ?_, by push_cast; exact mul_nonneg a1 a2⟩ <;> push_cast <;> rw [abs_of_nonneg a1, abs_of_nonneg a2] <;> linarith
      · subst hv1
        simp only [Spec.Rounds]
        norm_num
        rw [abs_of_pos h0]
        exact h1
  · have hv2 : v ≤ -1 := by omega
    have hv' : (v : ℚ) ≤ -1 := by exact_mod_cast hv2
    rw [if_neg hv]
    split
    · apply key
      have a1 : ((v : ℚ) + 1) ≤ 0 := by linarith
      have a2 : ((v : ℚ) + d) ≤ 0 := by linarith
      refine ⟨?_, ?_, by push_cast; exact mul_nonneg_of_nonpos_of_nonpos a1 a2⟩ <;> push_cast <;>
        rw [abs_of_nonpos a1, abs_of_nonpos a2] <;> linarith
    · apply key
      have a1 : (v : ℚ) ≤ 0 := by linarith
      have a2 : ((v : ℚ) + -d) ≤ 0 := by linarith
      refine ⟨?_, ?_, mul_nonneg_of_nonpos_of_nonpos a1 a2⟩ <;>
        rw [abs_of_nonpos a1, abs_of_nonpos a2] <;> linarith

/-- C106: a random walk by `(d,)` with `d` below one only ever moves towards zero: it moves by one
for every draw in that direction, stays for every draw in the other, and ends at zero. -/
theorem C106_walk (us : List ℝ) : ∀ v : ℤ,
    (0 ≤ v → us.foldl (fun w u => x.apply w delta (some false) u) v =
      max 0 (v - (us.filter fun u => u ≤ 1 / 2).length)) ∧
    (v ≤ 0 → us.foldl (fun w u => x.apply w delta (some false) u) v =
      min 0 (v + (us.filter fun u => 1 / 2 < u).length)) := by
  induction us with
  | nil => intro v; constructor <;> intro h <;> simp [h]
  | cons u us ih =>
    intro v
    simp only [List.foldl_cons, orand_apply x d h0 h1 delta hdelta v u, List.filter_cons, gt_iff_lt]
    by_cases hu : 1 / 2 < u
    · have hu' : ¬ u ≤ 1 / 2 := not_le.2 hu
      simp only [hu, hu', if_true, decide_true, decide_false, Bool.false_eq_true, if_false, List.length_cons]
      constructor
      · intro hv
        rw [if_pos hv]
        exact (ih v).1 hv
      · intro hv
        by_cases hz : 0 ≤ v
        · rw [if_pos hz, (ih v).2 hv]
          push_cast
          omega
        · rw [if_neg hz, (ih (v + 1)).2 (by omega)]
          push_cast
          omega
    · have hu' : u ≤ 1 / 2 := not_lt.1 hu
      simp only [hu, hu', if_true, decide_true, decide_false, Bool.false_eq_true, if_false, List.length_cons]
      constructor
      · intro hv
        rw [if_pos hv, (ih _).1 (le_max_left _ _)]
        push_cast
        omega
      · intro hv
        by_cases hz : 0 ≤ v
        · have : v = 0 := by omega
          subst this
          rw [if_pos le_rfl]
          exact (ih _).2 (by simp)
        · rw [if_neg hz]
          exact (ih v).2 hv

/-- C106: with independent fair signs the walk is at zero from some step on, almost surely, wherever
it starts. -/
theorem C106_absorbed {Ω : Type} [MeasurableSpace Ω] (μ : Measure Ω) [IsProbabilityMeasure μ] (U : ℕ → Ω → ℝ)
    (hm : ∀ i, Measurable (U i)) (hi : iIndepFun U μ) (hfair : ∀ i, μ {ω | U i ω ≤ 1 / 2} = 1 / 2) (v : ℤ) :
    ∀ᵐ ω ∂μ, ∃ N, ∀ n ≥ N,
      ((List.range n).map fun i => U i ω).foldl (fun w u => x.apply w delta (some false) u) v = 0 := by
  have hfreq : ∀ S : _root_.Set ℝ, MeasurableSet S → (∀ i, μ (U i ⁻¹' S) = 1 / 2) →
      ∀ᵐ ω ∂μ, ∃ᶠ i in atTop, U i ω ∈ S := by
    intro S hS hhalf
    have hms : ∀ i, MeasurableSet (U i ⁻¹' S) := fun i => hm i hS
    have hind : iIndepSet (fun i => U i ⁻¹' S) μ := by
      rw [iIndepSet_iff_meas_biInter hms]
      intro s
      exact hi.meas_biInter fun i _ => ⟨S, hS, rfl⟩
    have hsum : (∑' n, μ (U n ⁻¹' S)) = ⊤ := by
      simp only [hhalf]
      exact ENNReal.tsum_const_eq_top_of_ne_zero (by simp)
    have h1 := measure_limsup_eq_one hms hind hsum
    have hlim : MeasurableSet (limsup (fun n => U n ⁻¹' S) atTop) := MeasurableSet.measurableSet_limsup hms
    have h2 : ∀ᵐ ω ∂μ, ω ∈ limsup (fun n => U n ⁻¹' S) atTop := (prob_compl_eq_zero_iff hlim).2 h1
    filter_upwards [h2] with ω hω
    exact (mem_limsup_iff_frequently_mem).1 hω
  have hle : MeasurableSet {u : ℝ | u ≤ 1 / 2} := measurableSet_Iic
  have hgt : MeasurableSet {u : ℝ | 1 / 2 < u} := measurableSet_Ioi
  have hcount : ∀ (ω : Ω) (p : ℝ → Bool), (∃ᶠ i in atTop, p (U i ω) = true) → ∀ k : ℕ, ∃ N, ∀ n ≥ N,
      k ≤ (((List.range n).map fun i => U i ω).filter p).length := by
    intro ω p hf k
    induction k with
    | zero => exact ⟨0, by simp⟩
    | succ k ih =>
      obtain ⟨N, hN⟩ := ih
      obtain ⟨m, hm1, hm2⟩ := (frequently_atTop.1 hf) N
      have hstep : ∀ n, m + 1 ≤ n → k + 1 ≤ (((List.range n).map fun i => U i ω).filter p).length := by
        intro n hn
        induction n, hn using Nat.le_induction with
        | base =>
          have := hN m hm1
          simp only [List.range_succ, List.map_append, List.filter_append, List.length_append, List.map_cons,
            List.map_nil, List.filter_cons, hm2, if_true, List.filter_nil, List.length_cons, List.length_nil]
          omega
        | succ n _ ih' =>
          simp only [List.range_succ, List.map_append, List.filter_append, List.length_append]
          omega
      exact ⟨m + 1, hstep⟩
  have hgt2 : ∀ i, μ (U i ⁻¹' {u | 1 / 2 < u}) = 1 / 2 := by
    intro i
    have : U i ⁻¹' {u | 1 / 2 < u} = {ω | U i ω ≤ 1 / 2}ᶜ := by ext ω; simp
    have hle' : MeasurableSet {ω | U i ω ≤ 1 / 2} := hm i hle
    rw [this, prob_compl_eq_one_sub hle', hfair i]
    simp
  filter_upwards [hfreq _ hle hfair, hfreq _ hgt hgt2] with ω f1 f2
  rcases le_total 0 v with hv | hv
  · obtain ⟨N, hN⟩ := hcount ω (fun u => decide (u ≤ 1 / 2)) (by simpa using f1) v.toNat
    refine ⟨N, fun n hn => ?_⟩
    rw [(C106_walk x d h0 h1 delta hdelta _ v).1 hv]
    have := hN n hn
    omega
  · obtain ⟨N, hN⟩ := hcount ω (fun u => decide (1 / 2 < u)) (by simpa using f2) (-v).toNat
    refine ⟨N, fun n hn => ?_⟩
    rw [(C106_walk x d h0 h1 delta hdelta _ v).2 hv]
    have := hN n hn
    omega

end

/-- A case of `C106_absorbed`: the default delta `(1/2,)` with scaling. -/
example : ∀ᵐ ω ∂Spec.streamLaw, ∃ N, ∀ n ≥ N, ((List.range n).map fun i => ω i).foldl
    (fun w u => (⟨some (.orand (1 / 2)), true, false, 5, 0, 4⟩ : IntVar).apply w none (some false) u) 3 = 0 := by
  refine C106_absorbed _ (1 / 2) (by norm_num) (by norm_num) none (.inr ⟨rfl, rfl⟩) Spec.streamLaw
    (fun i ω => ω i) (fun i => measurable_pi_apply i) ?_ ?_ 3
  · exact iIndepFun_infinitePi (P := fun _ : ℕ => unitLaw) (X := fun _ u => u) (fun _ => measurable_id)
  · intro i
    have h := stream_coins.chance (1 / 2) (by norm_num) (by norm_num) i
    rw [measure_congr (t := {ω | streamCoin ω (1 / 2) i = true}), h, ENNReal.ofReal_div_of_pos (by norm_num)]
    · simp
    · filter_upwards [streamLaw_unit] with ω hω
      have := hω i
      apply propext
      show ω i ≤ 1 / 2 ↔ streamCoin ω (1 / 2) i = true
      simp [streamCoin, this.1, this.2]

/-- A case of `C106_walk`. -/
example : ([1 / 4, 3 / 4, 1 / 4] : List ℝ).foldl
    (fun w u => (⟨none, false, false, 5, 0, 4⟩ : IntVar).apply w (some (.orand (1 / 2))) (some false) u) 4 = 2 := by
  rw [(C106_walk _ (1 / 2) (by norm_num) (by norm_num) _ (.inl ⟨rfl, rfl⟩) _ 4).1 (by norm_num)]
  norm_num [List.filter_cons]

end Probayes
