/-
C84: a covariance set as the transition of a random field is that of its steps.
-/
import Verif.Lemmas.Chol
import Verif.Lemmas.Moments
import Verif.Lemmas.Sphere
import Verif.Props.WalkField
import Verif.Props.RFStep

namespace Probayes

open MeasureTheory Matrix

/-! ### What is claimed -/

/-- A Cholesky factor of the matrix whose lower triangle is that of `M`: lower triangular, of
positive diagonal, and `L Lᵀ` is `M` in the lower triangle. -/
def Spec.Factor {n : ℕ} (M L : Matrix (Fin n) (Fin n) ℝ) : Prop :=
  (∀ i j, i < j → L i j = 0) ∧ (∀ i, 0 < L i i) ∧ ∀ i j, j ≤ i → (L * Lᵀ) i j = M i j

/-- What is documented of `np.linalg.cholesky`: it gives such a factor, looking at the lower
triangle only, or raises LinAlgError if there is none. -/
structure Spec.Cholesky (chol : Chol) : Prop where
  factor : ∀ n M L, chol n M = some L → Spec.Factor M L
  fails : ∀ n M, chol n M = none → ∀ L, ¬ Spec.Factor M L

/-- The symmetric matrix with the lower triangle of `M`. -/
def Spec.mirrored {n : ℕ} (M : Matrix (Fin n) (Fin n) ℝ) : Matrix (Fin n) (Fin n) ℝ :=
  fun i j => if j ≤ i then M i j else M j i

/-- A call of `set_tran` or of `set_tfun`. -/
inductive Spec.TranCall where
  | tran (M : Option Arr2) (tsteps : Option ℤ)
  | tfun (M : Option Arr2)

/-- The call. -/
noncomputable def Spec.TranCall.run (chol : Chol) (n : ℕ) (F : RFTrans) : Spec.TranCall → RFTrans × Py Unit
  | .tran M t => F.setTran chol n M t
  | .tfun M => F.setTfun n M

/-- The field after a sequence of calls, refused ones among them. -/
noncomputable def Spec.history (chol : Chol) (n : ℕ) (calls : List Spec.TranCall) : RFTrans :=
  calls.foldl (fun F c => (c.run chol n F).1) RFTrans.fresh

/-- The mean over uniform draws from those of the unit cube that lie in `S`. -/
noncomputable def Spec.over {n : ℕ} (S : _root_.Set (Fin n → ℝ)) (f : (Fin n → ℝ) → ℝ) : ℝ :=
  ∫ u in (_root_.Set.univ.pi fun _ => _root_.Set.Ico 0 1) ∩ S, f u

/-- The delta of a field as evaluated: the field's own, then by its transition. -/
noncomputable def Spec.evaluated {n : ℕ} (F : RFTrans) (names : Fin n → Str) (cs : Fin n → FCoord) (D : FieldDelta)
    (u : Fin n → ℝ) : Py (Moves n) := do
  F.evalMoves (← fieldMoves names cs D u)

/-! ### Setting -/

theorem square_self {n : ℕ} (C : Matrix (Fin n) (Fin n) ℝ) : Arr2.square ⟨n, n, C⟩ n = C := by
  funext i j
  simp [Arr2.square]

theorem mirrored_factor {n : ℕ} {M L : Matrix (Fin n) (Fin n) ℝ} (h : Spec.Factor M L) :
    L * Lᵀ = Spec.mirrored M := by
  funext i j
  unfold Spec.mirrored
  split
  · exact h.2.2 i j ‹_›
  · have := h.2.2 j i (by omega)
    rw [← this]
    have hs : (L * Lᵀ)ᵀ = L * Lᵀ := by rw [transpose_mul, transpose_transpose]
    exact (congrFun (congrFun hs j) i).symm ▸ rfl

theorem factor_iff {n : ℕ} (M : Matrix (Fin n) (Fin n) ℝ) :
    (∃ L, Spec.Factor M L) ↔ (Spec.mirrored M).PosDef := by
  constructor
  · rintro ⟨L, h⟩
    rw [← mirrored_factor h]
    exact factor_posDef h.1 h.2.1
  · intro h
    obtain ⟨L, h1, h2, h3⟩ := exists_factor _ h
    refine ⟨L, h1, h2, fun i j hij => ?_⟩
    rw [h3]
    simp [Spec.mirrored, hij]

theorem mirrored_symm {n : ℕ} {C : Matrix (Fin n) (Fin n) ℝ} (hC : Cᵀ = C) : Spec.mirrored C = C := by
  funext i j
  unfold Spec.mirrored
  split
  · rfl
  · exact congrFun (congrFun hC i) j

/-- The documented behaviour is consistent. -/
theorem exists_cholesky : ∃ chol, Spec.Cholesky chol := by
  classical
  refine ⟨fun n M => if h : ∃ L, Spec.Factor M L then some h.choose else none, ?_, ?_⟩
  · intro n M L h
    by_cases hx : ∃ L, Spec.Factor M L
    · rw [dif_pos hx] at h
      obtain rfl := Option.some.inj h
      exact hx.choose_spec
    · rw [dif_neg hx] at h
      simp at h
  · intro n M h L hL
    rw [dif_pos ⟨L, hL⟩] at h
    simp at h

theorem factor_triangular {n : ℕ} {M L : Matrix (Fin n) (Fin n) ℝ} (h : Spec.Factor M L) :
    Arr2.triangular ⟨n, n, L⟩ = true := by
  unfold Arr2.triangular
  rw [decide_eq_true_iff]
  left
  intro i j hij
  have := h.1 i j hij
  simp only
  rw [this]
  norm_num

theorem setTran_eq {chol : Chol} (hc : Spec.Cholesky chol) {n : ℕ} (F : RFTrans) (hF : F.ready = true)
    (C : Matrix (Fin n) (Fin n) ℝ) (t : Option ℤ) :
    (∃ L, Spec.Factor C L ∧ F.setTran chol n (some ⟨n, n, C⟩) t =
      (⟨true, some ⟨n, n, C⟩, some ⟨n, n, L⟩, t⟩, if t.isNone then .ok () else .error .assertion)) ∨
    ((∀ L, ¬ Spec.Factor C L) ∧ F.setTran chol n (some ⟨n, n, C⟩) t =
      (⟨true, some ⟨n, n, C⟩, F.tfun, t⟩, .error .value)) := by
  rcases h : chol n C with _ | L
  · right
    refine ⟨hc.fails n C h, ?_⟩
    simp [RFTrans.setTran, hF, Arr2.isSquare, square_self, h]
  · left
    have hf := hc.factor n C L h
    refine ⟨L, hf, ?_⟩
    simp [RFTrans.setTran, RFTrans.setTfun, hF, Arr2.isSquare, square_self, h, factor_triangular hf]

/-- C84: a random field accepts as covariance exactly the square matrices of its size whose
lower triangle is that of a positive definite matrix. -/
theorem C84_accepts {chol : Chol} (hc : Spec.Cholesky chol) {n : ℕ} (F : RFTrans) (hF : F.ready = true) (M : Arr2) :
    (F.setTran chol n (some M) none).2 = .ok () ↔
      ∃ C : Matrix (Fin n) (Fin n) ℝ, M = ⟨n, n, C⟩ ∧ (Spec.mirrored C).PosDef := by
  by_cases hsq : M.isSquare n = true
  · obtain ⟨r, c, C⟩ := M
    simp only [Arr2.isSquare, decide_eq_true_eq] at hsq
    obtain ⟨h1, h2⟩ := hsq
    subst h1
    subst h2
    rcases setTran_eq hc F hF C none with ⟨L, hL, h⟩ | ⟨hno, h⟩
    · rw [h]
      simp only [Option.isNone_none, if_true, true_iff]
      exact ⟨C, rfl, (factor_iff C).mp ⟨L, hL⟩⟩
    · rw [h]
      simp only [reduceCtorEq, false_iff]
      rintro ⟨C', he, hp⟩
      have : C = C' := by simpa using he
      subst this
      obtain ⟨L, hL⟩ := (factor_iff C).mpr hp
      exact hno L hL
  · have : (F.setTran chol n (some M) none).2 = .error .assertion := by
      simp [RFTrans.setTran, hF, hsq]
    rw [this]
    simp only [reduceCtorEq, false_iff]
    rintro ⟨C, rfl, _⟩
    simp [Arr2.isSquare] at hsq

theorem evalMoves_tfun {n : ℕ} (F : RFTrans) {L : Matrix (Fin n) (Fin n) ℝ} (h : F.tfun = some ⟨n, n, L⟩)
    (δ : Fin n → ℝ) :
    F.evalMoves (.deltas δ) = .ok (.arrays (L *ᵥ δ)) ∧ F.evalMoves (.nums δ) = .ok (.nums (L *ᵥ δ)) := by
  have hm : (fun i => ∑ j, Arr2.square ⟨n, n, L⟩ n i j * δ j) = L *ᵥ δ := by
    rw [square_self]; rfl
  constructor <;> simp [RFTrans.evalMoves, h, hm]

/-- C84: once a covariance is set, whatever was set before, the deltas of the field are
multiplied by a lower triangular factor of it. -/
theorem C84_steps {chol : Chol} (hc : Spec.Cholesky chol) {n : ℕ} (F : RFTrans) (hF : F.ready = true)
    (C : Matrix (Fin n) (Fin n) ℝ) (hC : C.PosDef) :
    ∃ L : Matrix (Fin n) (Fin n) ℝ, L * Lᵀ = C ∧ (∀ i j, i < j → L i j = 0) ∧
      (F.setTran chol n (some ⟨n, n, C⟩) none).2 = .ok () ∧
      ∀ δ, (F.setTran chol n (some ⟨n, n, C⟩) none).1.evalMoves (.deltas δ) = .ok (.arrays (L *ᵥ δ)) ∧
        (F.setTran chol n (some ⟨n, n, C⟩) none).1.evalMoves (.nums δ) = .ok (.nums (L *ᵥ δ)) := by
  have hsymm : Cᵀ = C := by
    have := hC.1
    rwa [Matrix.IsHermitian, conjTranspose_eq_transpose_of_trivial] at this
  rcases setTran_eq hc F hF C none with ⟨L, hL, h⟩ | ⟨hno, _⟩
  · refine ⟨L, by rw [mirrored_factor hL, mirrored_symm hsymm], hL.1, by rw [h]; rfl, fun δ => ?_⟩
    rw [h]
    exact evalMoves_tfun _ rfl δ
  · obtain ⟨L, hL⟩ := (factor_iff C).mpr (by rw [mirrored_symm hsymm]; exact hC)
    exact absurd hL (hno L)

/-! ### What stays -/

/-- C84 full claim: a transition that has been taken back has no effect on the deltas. -/
def C84_replaced_claim : Prop :=
  ∀ chol, Spec.Cholesky chol → ∀ (n : ℕ) (calls : List Spec.TranCall) (m : Moves n),
    (Spec.history chol n (calls ++ [.tran none none])).evalMoves m = .ok m

theorem ready_history (chol : Chol) (n : ℕ) (calls : List Spec.TranCall) :
    (Spec.history chol n calls).ready = true := by
  unfold Spec.history
  have : ∀ F : RFTrans, F.ready = true → (calls.foldl (fun F c => (c.run chol n F).1) F).ready = true := by
    induction calls with
    | nil => intro F h; exact h
    | cons c calls ih =>
        intro F h
        refine ih _ ?_
        rcases c with ⟨_ | M, t⟩ | ⟨_ | M⟩
        · simpa [Spec.TranCall.run, RFTrans.setTran] using h
        · simp only [Spec.TranCall.run, RFTrans.setTran, h, Bool.not_true, Bool.false_eq_true, if_false]
          cases M.isSquare n
          · rfl
          · rcases chol n (M.square n) with _ | L
            · rfl
            · by_cases hx : (Arr2.isSquare n ⟨n, n, L⟩ && Arr2.triangular ⟨n, n, L⟩) = true
              · simp [RFTrans.setTfun, hx, h]
              · simp [RFTrans.setTfun, hx, h]
        · simpa [Spec.TranCall.run, RFTrans.setTfun] using h
        · simpa [Spec.TranCall.run, RFTrans.setTfun] using h
  exact this _ rfl

theorem four_posDef : Matrix.PosDef (fun _ _ => 4 : Matrix (Fin 1) (Fin 1) ℝ) := by
  have : (fun _ _ => 4 : Matrix (Fin 1) (Fin 1) ℝ) = diagonal fun _ => 4 := by
    ext i j
    have := Subsingleton.elim i j
    subst this
    simp
  rw [this]
  exact Matrix.PosDef.diagonal fun _ => by norm_num

/-- C84: it has: the factor is kept when the covariance is replaced by nothing. -/
theorem C84_replaced_claim_fails : ¬ C84_replaced_claim := by
  intro h
  obtain ⟨chol, hc⟩ := exists_cholesky
  have h1 := h chol hc 1 [.tran (some ⟨1, 1, fun _ _ => 4⟩) none] (.nums fun _ => 1)
  obtain ⟨L, hL, _, h2, h3⟩ := C84_steps hc RFTrans.fresh rfl (fun _ _ => 4) four_posDef
  have h4 := (h3 fun _ => 1).2
  simp only [Spec.history, List.cons_append, List.nil_append, List.foldl_cons, List.foldl_nil, Spec.TranCall.run] at h1
  set F := (RFTrans.fresh.setTran chol 1 (some ⟨1, 1, fun _ _ => 4⟩) none).1
  have hsame : (F.setTran chol 1 none none).1.evalMoves (.nums fun _ : Fin 1 => (1:ℝ)) =
      F.evalMoves (.nums fun _ => 1) := by
    simp [RFTrans.setTran, RFTrans.evalMoves]
  rw [hsame, h4] at h1
  have h5 : (L *ᵥ fun _ => (1:ℝ)) = fun _ => 1 := by simpa using h1
  have h6 : L 0 0 = 1 := by simpa [mulVec, dotProduct] using congrFun h5 0
  have h7 : L 0 0 * L 0 0 = 4 := by simpa [Matrix.mul_apply] using congrFun (congrFun hL 0) 0
  rw [h6] at h7
  norm_num at h7

/-- C84 for what holds: taking back the factor as well, with `set_tfun()`, leaves the deltas as
they are. -/
theorem C84_replaced_partial (chol : Chol) (n : ℕ) (calls : List Spec.TranCall) (m : Moves n) :
    (Spec.history chol n (calls ++ [.tran none none, .tfun none])).evalMoves m = .ok m := by
  simp [Spec.history, List.foldl_append, Spec.TranCall.run, RFTrans.setTfun, RFTrans.evalMoves]

/-- C84 full claim: a call that is refused leaves the deltas as they were. -/
def C84_refused_claim : Prop :=
  ∀ chol, Spec.Cholesky chol → ∀ (n : ℕ) (calls : List Spec.TranCall) (c : Spec.TranCall) (m : Moves n),
    Raises (c.run chol n (Spec.history chol n calls)).2 →
      (c.run chol n (Spec.history chol n calls)).1.evalMoves m = (Spec.history chol n calls).evalMoves m

/-- C84: for a matrix refused by `set_tfun` it does not: it is used nonetheless.  Nor for a
covariance with `tsteps`. -/
theorem C84_refused_claim_fails : ¬ C84_refused_claim := by
  intro h
  obtain ⟨chol, hc⟩ := exists_cholesky
  have h1 := h chol hc 2 [] (.tfun (some ⟨2, 2, fun _ _ => 1⟩)) (.nums fun _ => 1) ⟨.assertion, by
    simp only [Spec.TranCall.run, RFTrans.setTfun]
    rw [if_neg]
    simp only [Bool.and_eq_true, not_and]
    intro _ ht
    simp only [Arr2.triangular, decide_eq_true_iff] at ht
    rcases ht with ht | ht
    · have := ht 0 1 (by simp)
      norm_num at this
    · have := ht 1 0 (by simp)
      norm_num at this⟩
  have h2 : (Spec.history chol 2 []).evalMoves (.nums fun _ : Fin 2 => (1:ℝ)) = .ok (.nums fun _ => 1) := rfl
  have h3 : (Spec.TranCall.run chol 2 (Spec.history chol 2 []) (.tfun (some ⟨2, 2, fun _ _ => 1⟩))).1.tfun =
      some ⟨2, 2, fun _ _ => 1⟩ := rfl
  rw [h2, (evalMoves_tfun _ h3 _).2] at h1
  have h4 : ((fun _ _ => 1 : Matrix (Fin 2) (Fin 2) ℝ) *ᵥ fun _ => (1:ℝ)) = fun _ => 1 := by simpa using h1
  have := congrFun h4 0
  norm_num [mulVec, dotProduct] at this

theorem C84_tsteps_claim_fails : ¬ C84_refused_claim := by
  intro h
  obtain ⟨chol, hc⟩ := exists_cholesky
  rcases setTran_eq hc RFTrans.fresh rfl (fun _ _ => 4 : Matrix (Fin 1) (Fin 1) ℝ) (some 1) with ⟨L, hL, he⟩ | ⟨hno, _⟩
  · have h1 := h chol hc 1 [] (.tran (some ⟨1, 1, fun _ _ => 4⟩) (some 1)) (.nums fun _ => 1) (by
      simp only [Spec.TranCall.run, Spec.history, List.foldl_nil]
      rw [he]
      exact ⟨_, rfl⟩)
    simp only [Spec.TranCall.run, Spec.history, List.foldl_nil] at h1
    rw [he, (evalMoves_tfun _ rfl _).2] at h1
    have h5 : (L *ᵥ fun _ => (1:ℝ)) = fun _ => 1 := by simpa [RFTrans.evalMoves, RFTrans.fresh] using h1
    have h6 : L 0 0 = 1 := by simpa [mulVec, dotProduct] using congrFun h5 0
    have h7 : L 0 0 * L 0 0 = 4 := by simpa [Matrix.mul_apply] using hL.2.2 0 0 le_rfl
    rw [h6] at h7
    norm_num at h7
  · obtain ⟨L, hL⟩ := (factor_iff (fun _ _ => 4 : Matrix (Fin 1) (Fin 1) ℝ)).mpr (by
      rw [mirrored_symm (C := (fun _ _ => 4 : Matrix (Fin 1) (Fin 1) ℝ)) (by rfl)]; exact four_posDef)
    exact hno L hL

/-- C84 for what holds: a covariance that is refused, without `tsteps`, leaves the deltas as
they were. -/
theorem C84_refused_partial {chol : Chol} (hc : Spec.Cholesky chol) (n : ℕ) (calls : List Spec.TranCall)
    (M : Option Arr2) (m : Moves n)
    (h : Raises (Spec.TranCall.run chol n (Spec.history chol n calls) (.tran M none)).2) :
    (Spec.TranCall.run chol n (Spec.history chol n calls) (.tran M none)).1.evalMoves m =
      (Spec.history chol n calls).evalMoves m := by
  have hr := ready_history chol n calls
  set F := Spec.history chol n calls
  obtain ⟨e, he⟩ := h
  simp only [Spec.TranCall.run] at he ⊢
  cases M with
  | none => simp [RFTrans.setTran] at he
  | some M =>
      by_cases hsq : M.isSquare n = true
      · obtain ⟨r, c, C⟩ := M
        simp only [Arr2.isSquare, decide_eq_true_eq] at hsq
        obtain ⟨h1, h2⟩ := hsq
        subst h1
        subst h2
        rcases setTran_eq hc F hr C none with ⟨L, hL, hx⟩ | ⟨hno, hx⟩
        · rw [hx] at he; simp at he
        · rw [hx]; rfl
      · simp [RFTrans.setTran, hr, hsq, RFTrans.evalMoves]

/-- C84 full claim: only symmetric matrices are accepted as covariances. -/
def C84_symmetric_claim : Prop :=
  ∀ chol, Spec.Cholesky chol → ∀ (n : ℕ) (C : Matrix (Fin n) (Fin n) ℝ),
    (RFTrans.fresh.setTran chol n (some ⟨n, n, C⟩) none).2 = .ok () → Cᵀ = C

/-- C84: others are too, by their lower triangles. -/
theorem C84_symmetric_claim_fails : ¬ C84_symmetric_claim := by
  intro h
  obtain ⟨chol, hc⟩ := exists_cholesky
  have hm : Spec.mirrored !![1, 7; 0, 1] = (1 : Matrix (Fin 2) (Fin 2) ℝ) := by
    ext i j
    fin_cases i <;> fin_cases j <;> simp [Spec.mirrored]
  have := h chol hc 2 !![1, 7; 0, 1] ((C84_accepts hc _ rfl _).mpr ⟨_, rfl, by rw [hm]; exact Matrix.PosDef.one⟩)
  have := congrFun (congrFun this 0) 1
  norm_num at this

/-! ### Means and covariances -/

theorem coordDelta_declared (c : Spec.Declared) (u : ℝ) : coordDelta c.coord u = some (addend c u) := by
  unfold coordDelta Spec.Declared.coord addend
  cases hu : c.uniform <;> simp [evalDelta, orDefault, isDefaultScalar]

theorem fieldMoves_own {n : ℕ} (names : Fin n → Str) (cs : Fin n → Spec.Declared) (u : Fin n → ℝ) :
    fieldMoves names (fun i => (cs i).coord) .own u = .ok (.deltas fun i => addend (cs i) (u i)) := by
  simp [fieldMoves, coordDelta_declared]

theorem addend_signLike {n : ℕ} (cs : Fin n → Spec.Declared) {d : ℝ} (hd : ∀ i, (cs i).d = d) :
    SignLike (cubeLaw n) fun u i => addend (cs i) (u i) where
  flip k := flipOn_preserving {k}
  own k := by
    have hne : ∀ᵐ u ∂cubeLaw n, u k ≠ 1/2 := by
      rw [cubeLaw_pi]
      exact (Measure.tendsto_eval_ae_ae (μ := fun _ : Fin n => unitLaw) (i := k)).eventually (Measure.ae_ne unitLaw _)
    filter_upwards [hne] with u hu
    simp only [flipOn, Finset.mem_singleton, if_true]
    exact addend_flip _ _ hu
  other k l hl := Filter.Eventually.of_forall fun u => by
    simp only [flipOn, Finset.mem_singleton, hl, if_false]
  meas k := (addend_measurable (cs k)).comp (measurable_pi_apply k)
  bounded := ⟨|d|, by
    refine (ae_restrict_mem (MeasurableSet.univ_pi fun _ => measurableSet_Ico)).mono fun u hu k => ?_
    have h := hu k (Set.mem_univ k)
    unfold addend
    rw [hd]
    split
    · have h1 : -d + 2 * d * u k = d * (2 * u k - 1) := by ring
      rw [h1, abs_mul]
      exact mul_le_of_le_one_right (abs_nonneg _) (abs_le.mpr ⟨by linarith [h.1], by linarith [h.2]⟩)
    · split
      · exact le_rfl
      · rw [abs_neg]⟩

instance cubeLaw_prob (n : ℕ) : IsProbabilityMeasure (cubeLaw n) := ⟨cubeLaw_univ n⟩

/-- C84: with a covariance set, deltas that are uniform of size `d` give steps of mean zero and
of covariance proportional to it, `d²/3` for uniform ones and `d²` for those of random
sign. -/
theorem C84_covariance {chol : Chol} (hc : Spec.Cholesky chol) {n : ℕ} (F : RFTrans) (hF : F.ready = true)
    (C : Matrix (Fin n) (Fin n) ℝ) (hC : C.PosDef) (names : Fin n → Str) (cs : Fin n → Spec.Declared)
    (uniform : Bool) (d : ℝ) (hcs : ∀ i, (cs i).uniform = uniform ∧ (cs i).d = d) :
    ∃ s : (Fin n → ℝ) → Fin n → ℝ,
      (∀ u, Spec.evaluated (F.setTran chol n (some ⟨n, n, C⟩) none).1 names (fun i => (cs i).coord) .own u =
        .ok (.arrays (s u))) ∧
      (∀ i, Spec.over Set.univ (fun u => s u i) = 0) ∧
      ∀ i j, Spec.over Set.univ (fun u => s u i * s u j) = (if uniform then d ^ 2 / 3 else d ^ 2) * C i j := by
  obtain ⟨L, hL, _, _, h⟩ := C84_steps hc F hF C hC
  refine ⟨fun u => L *ᵥ fun i => addend (cs i) (u i), fun u => ?_, ?_⟩
  · unfold Spec.evaluated
    rw [fieldMoves_own]
    exact (h _).1
  · have hs := addend_signLike cs fun i => (hcs i).2
    have hv : ∀ k, ∫ u, addend (cs k) (u k) * addend (cs k) (u k) ∂cubeLaw n =
        if uniform then d ^ 2 / 3 else d ^ 2 := by
      intro k
      rw [cube_coord k (fun x => addend (cs k) x * addend (cs k) x)
        ((addend_measurable _).mul (addend_measurable _))]
      cases hu : uniform with
      | true =>
          have : ∀ x, addend (cs k) x * addend (cs k) x = d ^ 2 * ((2 * x - 1) * (2 * x - 1)) := by
            intro x
            simp only [addend, (hcs k).1, (hcs k).2, hu, if_true]
            ring
          simp only [this]
          rw [integral_const_mul, unit_square]
          simp only [if_true]
          ring
      | false =>
          have : ∀ x, addend (cs k) x * addend (cs k) x = d ^ 2 := by
            intro x
            simp only [addend, (hcs k).1, (hcs k).2, hu, Bool.false_eq_true, if_false]
            split <;> ring
          simp [this]
    obtain ⟨h1, h2⟩ := hs.linear (fun i k => L i k) hv
    have hov : ∀ f : (Fin n → ℝ) → ℝ, Spec.over Set.univ f = ∫ u, f u ∂cubeLaw n := by
      intro f
      unfold Spec.over
      rw [Set.inter_univ]
    refine ⟨fun i => ?_, fun i j => ?_⟩
    · rw [hov]
      exact h1 i
    · rw [hov]
      have := h2 i j
      rw [← hL]
      exact this

/-- The draws of spherised deltas that give finite numbers: the squares of the uniform draws
add up to no less than the smallest normal float. -/
def Spec.finite {n : ℕ} (d : ℝ) : _root_.Set (Fin n → ℝ) := {u | npz ≤ ∑ i, (d * (2 * u i - 1)) ^ 2}

theorem drawSq_measurable {n : ℕ} (ρ : ℝ) : Measurable fun u : Fin n → ℝ => drawSq ρ u := by
  unfold drawSq
  exact Finset.measurable_sum _ fun i _ => (measurable_const.mul
    ((measurable_const.mul (measurable_pi_apply i)).sub measurable_const)).pow_const 2

theorem drawSq_flip {n : ℕ} (ρ : ℝ) (A : Finset (Fin n)) (u : Fin n → ℝ) : drawSq ρ (flipOn A u) = drawSq ρ u := by
  unfold drawSq
  refine Finset.sum_congr rfl fun i _ => ?_
  unfold flipOn
  split
  · ring
  · rfl

theorem sphComp_flip {n : ℕ} (cs : Fin n → FCoord) (d : ℝ) (scale : Bool) (A : Finset (Fin n)) (u : Fin n → ℝ)
    (i : Fin n) : sphComp cs d scale (flipOn A u) i = if i ∈ A then - sphComp cs d scale u i else sphComp cs d scale u i := by
  unfold sphComp
  rw [drawSq_flip]
  unfold flipOn
  split
  · ring
  · rfl

theorem sphComp_measurable {n : ℕ} (cs : Fin n → FCoord) (d : ℝ) (scale : Bool) (i : Fin n) :
    Measurable fun u => sphComp cs d scale u i := by
  unfold sphComp
  exact (((measurable_const.mul ((measurable_const.mul (measurable_pi_apply i)).sub measurable_const)).mul
    measurable_const).div (Real.continuous_sqrt.measurable.comp (drawSq_measurable _))).mul measurable_const

theorem sphComp_sq {n : ℕ} (cs : Fin n → FCoord) (d : ℝ) (u : Fin n → ℝ) (hu : u ∈ Spec.finite d) :
    ∑ i, sphComp cs d false u i ^ 2 = d ^ 2 := by
  have hpos : 0 < drawSq d u := lt_of_lt_of_le npz_pos hu
  have h : ∀ i, sphComp cs d false u i ^ 2 = (d * (2 * u i - 1)) ^ 2 * (d ^ 2 / drawSq d u) := by
    intro i
    simp only [sphComp, radius, Bool.false_eq_true, if_false, mul_one]
    rw [div_pow, Real.sq_sqrt hpos.le]
    ring
  simp only [h]
  rw [← Finset.sum_mul]
  change drawSq d u * _ = _
  field_simp

theorem sphComp_signLike {n : ℕ} (cs : Fin n → FCoord) (d : ℝ) :
    SignLike ((cubeLaw n).restrict (Spec.finite d)) (sphComp cs d false) where
  flip k := by
    have hS : MeasurableSet (Spec.finite d : Set (Fin n → ℝ)) := measurableSet_le measurable_const (drawSq_measurable d)
    have := (flipOn_preserving ({k} : Finset (Fin n))).restrict_preimage hS
    have he : flipOn {k} ⁻¹' (Spec.finite d : Set (Fin n → ℝ)) = Spec.finite d := by
      ext u
      have := drawSq_flip d {k} u
      unfold drawSq at this
      simp only [Spec.finite, Set.mem_preimage, Set.mem_setOf_eq, this]
    rwa [he] at this
  own k := Filter.Eventually.of_forall fun u => by rw [sphComp_flip, if_pos (by simp)]
  other k l hl := Filter.Eventually.of_forall fun u => by rw [sphComp_flip, if_neg (by simpa using hl)]
  meas k := sphComp_measurable cs d false k
  bounded := ⟨|d|, by
    have hS : MeasurableSet (Spec.finite d : Set (Fin n → ℝ)) := measurableSet_le measurable_const (drawSq_measurable d)
    refine (ae_restrict_mem hS).mono fun u hu k => ?_
    rw [← sq_le_sq, ← sphComp_sq cs d u hu]
    exact Finset.single_le_sum (f := fun i => sphComp cs d false u i ^ 2) (fun i _ => sq_nonneg _) (Finset.mem_univ k)⟩

theorem sphComp_second {n : ℕ} (cs : Fin n → FCoord) (d : ℝ) (k : Fin n) :
    ∫ u, sphComp cs d false u k * sphComp cs d false u k ∂(cubeLaw n).restrict (Spec.finite d) =
      d ^ 2 / n * ∫ _, (1:ℝ) ∂(cubeLaw n).restrict (Spec.finite d) := by
  have hS : MeasurableSet (Spec.finite d : Set (Fin n → ℝ)) := measurableSet_le measurable_const (drawSq_measurable d)
  set μ := (cubeLaw n).restrict (Spec.finite d) with hμ
  have hsl := sphComp_signLike cs d
  -- all are the same
  have hsame : ∀ l, ∫ u, sphComp cs d false u l * sphComp cs d false u l ∂μ =
      ∫ u, sphComp cs d false u k * sphComp cs d false u k ∂μ := by
    intro l
    set T := MeasurableEquiv.piCongrLeft (fun _ : Fin n => ℝ) (Equiv.swap k l) with hT
    have hTa : ∀ (u : Fin n → ℝ) i, T u i = u (Equiv.swap k l i) := by
      intro u i
      have := MeasurableEquiv.piCongrLeft_apply_apply (β := fun _ : Fin n => ℝ) (Equiv.swap k l) u (Equiv.swap k l i)
      rw [Equiv.swap_apply_self] at this
      exact this
    have hsq : ∀ u, drawSq d (T u) = drawSq d u := by
      intro u
      unfold drawSq
      simp only [hTa]
      exact Equiv.sum_comp (Equiv.swap k l) fun i => (d * (2 * u i - 1)) ^ 2
    have hpre : T ⁻¹' (Spec.finite d : Set (Fin n → ℝ)) = Spec.finite d := by
      ext u
      have := hsq u
      unfold drawSq at this
      simp only [Spec.finite, Set.mem_preimage, Set.mem_setOf_eq, this]
    have hmp := (swap_preserving (Equiv.swap k l)).restrict_preimage hS
    rw [hpre] at hmp
    rw [← hmp.integral_comp T.measurableEmbedding fun u => sphComp cs d false u k * sphComp cs d false u k]
    refine integral_congr_ae (Filter.Eventually.of_forall fun u => ?_)
    have : sphComp cs d false (T u) k = sphComp cs d false u l := by
      simp only [sphComp, radius, Bool.false_eq_true, if_false, hsq, hTa, Equiv.swap_apply_left]
    show _ = sphComp cs d false (T u) k * sphComp cs d false (T u) k
    rw [this]
  -- and sum to the square of the radius
  have hsum : ∑ l, ∫ u, sphComp cs d false u l * sphComp cs d false u l ∂μ = d ^ 2 * ∫ _, (1:ℝ) ∂μ := by
    rw [← integral_finsetSum _ fun l _ => hsl.integrable_mul l l, ← integral_const_mul]
    refine integral_congr_ae ((ae_restrict_mem hS).mono fun u hu => ?_)
    have := sphComp_sq cs d u hu
    simp only [sq] at this ⊢
    rw [this, mul_one]
  simp only [hsame, Finset.sum_const, Finset.card_univ, Fintype.card_fin, nsmul_eq_mul] at hsum
  have hn : (n : ℝ) ≠ 0 := by
    have : 0 < n := k.pos
    positivity
  rw [div_mul_eq_mul_div, eq_div_iff hn, mul_comm]
  exact hsum

/-- C84: with a covariance set, spherised deltas of radius `d` give steps at the distance `d` as
measured by the covariance, of mean zero and of covariance proportional to it, over the
draws that give finite numbers. -/
theorem C84_sphere {chol : Chol} (hc : Spec.Cholesky chol) {n : ℕ} (hn : 0 < n) (F : RFTrans) (hF : F.ready = true)
    (C : Matrix (Fin n) (Fin n) ℝ) (hC : C.PosDef) (names : Fin n → Str) (cs : Fin n → FCoord) (d : ℝ) :
    ∃ s : (Fin n → ℝ) → Fin n → ℝ,
      (∀ u ∈ Spec.finite d,
        Spec.evaluated (F.setTran chol n (some ⟨n, n, C⟩) none).1 names cs (.sphere d false) u = .ok (.nums (s u)) ∧
        s u ⬝ᵥ (C⁻¹ *ᵥ s u) = d ^ 2) ∧
      (∀ i, Spec.over (Spec.finite d) (fun u => s u i) = 0) ∧
      ∀ i j, Spec.over (Spec.finite d) (fun u => s u i * s u j) =
        d ^ 2 / n * C i j * Spec.over (n := n) (Spec.finite d) fun _ => 1 := by
  obtain ⟨L, hL, htri, _, h⟩ := C84_steps hc F hF C hC
  have hS : MeasurableSet (Spec.finite d : Set (Fin n → ℝ)) := measurableSet_le measurable_const (drawSq_measurable d)
  refine ⟨fun u => L *ᵥ sphComp cs d false u, fun u hu => ⟨?_, ?_⟩, ?_⟩
  · unfold Spec.evaluated
    rw [fieldMoves_sphere hn, if_pos (by simpa [radius, drawSq, Spec.finite] using hu)]
    exact (h _).2
  · have hdet : IsUnit C.det := (Matrix.isUnit_iff_isUnit_det C).mp hC.isUnit
    have hdL : IsUnit L.det := by
      rw [← hL, det_mul] at hdet
      exact isUnit_of_mul_isUnit_left hdet
    have hinv : Lᵀ * (C⁻¹ * L) = 1 := by
      rw [← hL, Matrix.mul_inv_rev, Matrix.mul_assoc, Matrix.nonsing_inv_mul _ hdL, Matrix.mul_one,
        Matrix.mul_nonsing_inv _ (by rwa [det_transpose])]
    set a := sphComp cs d false u with ha
    have : (L *ᵥ a) ⬝ᵥ (C⁻¹ *ᵥ (L *ᵥ a)) = a ⬝ᵥ a := by
      calc (L *ᵥ a) ⬝ᵥ (C⁻¹ *ᵥ (L *ᵥ a)) = (a ᵥ* Lᵀ) ⬝ᵥ (C⁻¹ *ᵥ (L *ᵥ a)) := by rw [vecMul_transpose]
        _ = a ⬝ᵥ (Lᵀ *ᵥ (C⁻¹ *ᵥ (L *ᵥ a))) := (dotProduct_mulVec _ _ _).symm
        _ = a ⬝ᵥ a := by rw [mulVec_mulVec, mulVec_mulVec, Matrix.mul_assoc, hinv, one_mulVec]
    rw [this, ← sphComp_sq cs d u hu]
    simp only [dotProduct, sq, ha]
  · have hov : ∀ f : (Fin n → ℝ) → ℝ, Spec.over (Spec.finite d) f = ∫ u, f u ∂(cubeLaw n).restrict (Spec.finite d) := by
      intro f
      unfold Spec.over
      rw [Measure.restrict_restrict hS, Set.inter_comm]
    obtain ⟨h1, h2⟩ := (sphComp_signLike cs d).linear (fun i k => L i k) (sphComp_second cs d)
    refine ⟨fun i => ?_, fun i j => ?_⟩
    · rw [hov]
      exact h1 i
    · rw [hov, hov]
      have := h2 i j
      rw [← hL]
      calc _ = _ := this
        _ = _ := by
          simp only [Matrix.mul_apply, transpose_apply]
          ring

/-! ### Steps -/

/-- C84: a distribution without axes does not hold an array of one element, so that steps by
such arrays are refused. -/
theorem C84_arrays_refused {vals : Dict Str Val} (hn : vals.keys.Nodup) {k : Str} {x : ℚ}
    (h : (k, .arr [1] [x]) ∈ vals) : Raises (distDims vals (some [])) := by
  cases hd : distDims vals (some []) with
  | error e => exact ⟨e, rfl⟩
  | ok r => exact (dims_nil_numbers hn (by rintro rfl; simp at h) hd h rfl (by simp)).elim

/-- C84: a matrix of another shape, refused by `set_tfun`, has every delta refused from then on. -/
theorem C84_refused_shape (F : RFTrans) {n r k : ℕ} (M : Matrix (Fin r) (Fin k) ℝ) (h : ¬ (r = n ∧ k = n)) (m : Moves n) :
    Raises (F.setTfun n (some ⟨r, k, M⟩)).2 ∧ Raises ((F.setTfun n (some ⟨r, k, M⟩)).1.evalMoves m) := by
  constructor
  · refine ⟨.assertion, ?_⟩
    have hsq : (decide (r = n ∧ k = n)) = false := decide_eq_false h
    simp [RFTrans.setTfun, Arr2.isSquare, hsq]
  · simp only [RFTrans.setTfun, RFTrans.evalMoves]
    by_cases hk : k = n
    · rw [if_neg (not_not.mpr hk), if_pos fun hr => h ⟨hr, hk⟩]
      exact ⟨_, rfl⟩
    · rw [if_pos hk]
      exact ⟨_, rfl⟩

example : ¬ ((2 : ℕ) = 2 ∧ (3 : ℕ) = 2) := by decide

/-- C84: constant deltas are multiplied by the lengths of their variables if scaled, then
by the factor of the covariance. -/
theorem C84_scaled {chol : Chol} (hc : Spec.Cholesky chol) {n : ℕ} (F : RFTrans) (hF : F.ready = true)
    (C : Matrix (Fin n) (Fin n) ℝ) (hC : C.PosDef) (names : Fin n → Str) (cs : Fin n → FCoord) (d : Fin n → ℝ)
    (hd : ∀ i, (cs i).o.delta = some (.scalar (d i))) :
    ∃ L : Matrix (Fin n) (Fin n) ℝ, L * Lᵀ = C ∧ ∀ u,
      Spec.evaluated (F.setTran chol n (some ⟨n, n, C⟩) none).1 names cs .own u =
        .ok (.arrays (L *ᵥ fun i => if (cs i).o.scale then d i * (cs i).len else d i)) := by
  obtain ⟨L, hL, _, _, h⟩ := C84_steps hc F hF C hC
  refine ⟨L, hL, fun u => ?_⟩
  have hcd : ∀ i, coordDelta (cs i) (u i) = some (if (cs i).o.scale then d i * (cs i).len else d i) := by
    intro i
    simp only [coordDelta, evalDelta, orDefault, hd i, isDefaultScalar]
    simp
  unfold Spec.evaluated
  simp only [fieldMoves, hcd, Option.isSome_some, implies_true, if_true, Option.getD_some]
  exact (h _).1

example : (⟨.make (.tuple 0 4), .none, ⟨some (.scalar (1/4)), true, true⟩, 4⟩ : FCoord).o.delta = some (.scalar (1/4)) := rfl

/-- C84 full claim: fields with a covariance can be stepped by the deltas of their variables. -/
def C84_step_claim : Prop :=
  ∀ chol, Spec.Cholesky chol → ∀ (n : ℕ) (C : Matrix (Fin n) (Fin n) ℝ), C.PosDef →
    ∀ (names : Fin n → Str) (cs : Fin n → Spec.Declared) (bound : Bool) (v : Fin n → ℝ) (ω : FDraw n),
      ∃ w, (RFTrans.fresh.setTran chol n (some ⟨n, n, C⟩) none).1.step names (fun i => (cs i).coord) .own bound v ω = .ok w

/-- C84: they cannot: whenever any variable is to move, the step raises. -/
theorem C84_step_refused {chol : Chol} (hc : Spec.Cholesky chol) {n : ℕ} (F : RFTrans) (hF : F.ready = true)
    (C : Matrix (Fin n) (Fin n) ℝ) (hC : C.PosDef) (names : Fin n → Str) (cs : Fin n → Spec.Declared)
    (bound : Bool) (v : Fin n → ℝ) (ω : FDraw n) (hmove : ∃ i, addend (cs i) (ω.u i) ≠ 0) :
    Raises ((F.setTran chol n (some ⟨n, n, C⟩) none).1.step names (fun i => (cs i).coord) .own bound v ω) := by
  obtain ⟨L, hL, _, _, h⟩ := C84_steps hc F hF C hC
  have hdL : IsUnit L.det := by
    have hdet : IsUnit C.det := (Matrix.isUnit_iff_isUnit_det C).mp hC.isUnit
    rw [← hL, det_mul] at hdet
    exact isUnit_of_mul_isUnit_left hdet
  refine ⟨.assertion, ?_⟩
  unfold RFTrans.step
  rw [fieldMoves_own]
  simp only [Bind.bind, Except.bind, (h _).1]
  rw [if_neg]
  intro h0
  obtain ⟨i, hi⟩ := hmove
  have hz : L *ᵥ (fun i => addend (cs i) (ω.u i)) = 0 := funext h0
  exact hi (congrFun (Matrix.eq_zero_of_mulVec_eq_zero hdL.ne_zero hz) i)

/-- A variable of limits 0 and 1 with uniform steps up to a half. -/
noncomputable def unitHalf : Spec.Declared := ⟨.tuple 0 1, .none, false, false, 1, true, 1/2⟩

theorem C84_step_claim_fails : ¬ C84_step_claim := by
  intro h
  obtain ⟨chol, hc⟩ := exists_cholesky
  obtain ⟨w, hw⟩ := h chol hc 1 (fun _ _ => 4) four_posDef (fun _ => ['x']) (fun _ => unitHalf) false (fun _ => 1/2)
    ⟨fun _ => 3/4, 0⟩
  obtain ⟨e, he⟩ := C84_step_refused hc RFTrans.fresh rfl (fun _ _ => 4) four_posDef (fun _ => ['x'])
    (fun _ => unitHalf) false (fun _ => 1/2) ⟨fun _ => 3/4, 0⟩ ⟨0, by norm_num [addend, unitHalf]⟩
  rw [he] at hw
  simp at hw

/-! ### Cases -/

theorem correlated_posDef : Matrix.PosDef (!![1, 1; 1, 2] : Matrix (Fin 2) (Fin 2) ℝ) := by
  have h : (!![1, 1; 1, 2] : Matrix (Fin 2) (Fin 2) ℝ) = !![1, 0; 1, 1] * !![1, 0; 1, 1]ᵀ := by
    ext i j
    fin_cases i <;> fin_cases j <;> norm_num [Matrix.mul_apply, Fin.sum_univ_two]
  rw [h]
  refine factor_posDef (fun i j hij => ?_) fun i => ?_
  · fin_cases i <;> fin_cases j
    · exact absurd hij (by decide)
    · rfl
    · exact absurd hij (by decide)
    · exact absurd hij (by decide)
  · fin_cases i <;> simp

/-- A covariance that is not diagonal is accepted, and one of a negative determinant is not. -/
example {chol : Chol} (hc : Spec.Cholesky chol) :
    (RFTrans.fresh.setTran chol 2 (some ⟨2, 2, !![1, 1; 1, 2]⟩) none).2 = .ok () ∧
    (RFTrans.fresh.setTran chol 2 (some ⟨2, 2, !![1, 2; 2, 1]⟩) none).2 ≠ .ok () := by
  constructor
  · refine (C84_accepts hc _ rfl _).mpr ⟨_, rfl, ?_⟩
    rw [mirrored_symm (by ext i j; fin_cases i <;> fin_cases j <;> rfl)]
    exact correlated_posDef
  · intro h
    obtain ⟨C, hC, hp⟩ := (C84_accepts hc _ rfl _).mp h
    have hC : !![1, 2; 2, 1] = C := by simpa using hC
    rw [← hC, mirrored_symm (by ext i j; fin_cases i <;> fin_cases j <;> rfl)] at hp
    have := hp.det_pos
    norm_num [Matrix.det_fin_two] at this

/-- Uniform steps up to a half of two variables with that covariance: the second moves with
variance a sixth and with the first by a twelfth. -/
example {chol : Chol} (hc : Spec.Cholesky chol) (names : Fin 2 → Str) :
    ∃ s : (Fin 2 → ℝ) → Fin 2 → ℝ,
      (∀ u, Spec.evaluated (RFTrans.fresh.setTran chol 2 (some ⟨2, 2, !![1, 1; 1, 2]⟩) none).1 names
        (fun _ => unitHalf.coord) .own u = .ok (.arrays (s u))) ∧
      Spec.over Set.univ (fun u => s u 1 * s u 1) = 1/6 ∧ Spec.over Set.univ (fun u => s u 0 * s u 1) = 1/12 := by
  obtain ⟨s, h1, _, h2⟩ := C84_covariance hc RFTrans.fresh rfl _ correlated_posDef names (fun _ => unitHalf) true (1/2)
    fun _ => ⟨rfl, rfl⟩
  refine ⟨s, h1, ?_, ?_⟩
  · rw [h2]
    norm_num
  · rw [h2]
    norm_num

/-- Nearly all draws of spherised deltas are finite: those with a first draw of no less than
three quarters are, for a radius of one. -/
example (u : Fin 2 → ℝ) (h : 3/4 ≤ u 0) : u ∈ Spec.finite (n := 2) 1 := by
  have h0 : npz ≤ 1/4 := by
    unfold npz
    norm_num
  simp only [Spec.finite, Set.mem_setOf_eq, Fin.sum_univ_two]
  nlinarith [sq_nonneg (2 * u 1 - 1), sq_nonneg (2 * u 0 - 1)]

/-- A value that is an array of one element, beside a number. -/
example : Raises (distDims [(['x'], .arr [1] [1/2]), (['y'], .scalar 0)] (some [])) :=
  C84_arrays_refused (k := ['x']) (x := 1/2) (by decide) (by simp)

end Probayes
