/-
C69: tables of joint densities.

The density is that of a scipy multivariate distribution, whose components are the
variables of the field in their order.  Values are read from arrays in row-major
order; axes of size one are dropped from the table.
-/
import Mathlib.Analysis.SpecialFunctions.Log.Basic
import Verif.Lemmas.Mvar

namespace Probayes

/-- The point with these values of the variables at these positions. -/
def Spec.point (vals : List (List ℝ)) (pos : List ℕ) : List ℝ :=
  List.zipWith (fun v i => v.getD i 0) vals pos

/-- Positions within the values. -/
def Spec.InTable (vals : List (List ℝ)) (pos : List ℕ) : Prop :=
  List.Forall₂ (fun i (v : List ℝ) => i < v.length) pos vals

/-- A table of these values' densities, one axis for every variable in order. -/
def Spec.Tabulates (T : Arr) (f : List ℝ → ℝ) (vals : List (List ℝ)) : Prop :=
  T.shape = (vals.map List.length).filter (· ≠ 1) ∧
  ∀ pos, Spec.InTable vals pos →
    T.get (squeezeIx (vals.map List.length) pos) = f (Spec.point vals pos)

/-- The density or its logarithm. -/
def Mvar.fn (P : Mvar) (logp : Bool) : List ℝ → ℝ := if logp then P.logpdf else P.pdf

theorem mvarMesh_lists (dim : ℕ) (f : List ℝ → ℝ) (arrs : List Arr) (p q : List ℝ)
    (rest : List (List ℝ)) (h : arrs.map Arr.ravel = p :: q :: rest)
    (hd : rest.length + 2 = dim) : ∃ T, mvarMesh dim f arrs = .ok T ∧
      T.shape = ((q :: p :: rest).map List.length).filter (· ≠ 1) ∧
      ∀ jq jp jr, jq < q.length → jp < p.length → Spec.InTable rest jr →
        T.get (squeezeIx ((q :: p :: rest).map List.length) (jq :: jp :: jr)) =
          f (p.getD jp 0 :: q.getD jq 0 :: Spec.point rest jr) := by
  match arrs with
  | [] => simp at h
  | [_] => simp at h
  | a :: b :: r =>
    simp only [List.map_cons, List.cons.injEq] at h
    obtain ⟨rfl, rfl, rfl⟩ := h
    obtain ⟨T, h1, h2, h3⟩ := mvarMesh_eq dim f a b r (by simpa using hd)
    refine ⟨T, h1, ?_, ?_⟩
    · rw [h2]; simp [Function.comp_def]
    · intro jq jp jr hq hp hr
      have hr' : List.Forall₂ (fun i (a : Arr) => i < a.ravel.length) jr r := by
        unfold Spec.InTable at hr
        rw [List.forall₂_map_right_iff] at hr
        exact hr
      have := h3 jq jp jr hq hp hr'
      simp only [List.map_cons, List.map_map, Function.comp_def, Spec.point, List.zipWith_map_left]
      exact this

theorem mvarProb_many (P : Mvar) (logp : Bool) (values : Dict Str Arr) (h : 2 ≤ values.length) :
    mvarProb P logp values = mvarMesh P.dim (P.fn logp) (mvarOrder (values.map Prod.snd)) := by
  match values with
  | [] => simp at h
  | [_] => simp at h
  | _ :: _ :: _ => rfl

theorem mvarField_ok (names : List Str) (P : Mvar) (logp : Bool) (values : Dict Str Arr)
    (h : ∀ k, k ∈ Dict.keys values ↔ k ∈ names) :
    mvarField names P logp values = mvarProb P logp values := by
  unfold mvarField
  rw [if_pos]
  simp only [Bool.and_eq_true, List.all_eq_true, decide_eq_true_eq]
  exact ⟨fun kv hkv => (h _).1 (List.mem_map_of_mem hkv), fun k hk => (h k).2 hk⟩

theorem map_mvarOrder {α β : Type} (g : α → β) (l : List α) :
    (mvarOrder l).map g = mvarOrder (l.map g) := by
  unfold mvarOrder
  simp only [List.length_reverse, List.length_map]
  split
  · simp [List.map_tail, List.map_take, List.map_reverse]
  · simp [List.map_reverse]

/-- **C69 (intended).**  For a field of several variables with a joint density of
them, the probabilities at given values are the density at these values, one axis
for every variable in order. -/
def C69_claim : Prop :=
  ∀ (names : List Str) (P : Mvar) (logp : Bool) (values : Dict Str Arr),
    Dict.keys values = names → names.Nodup → 2 ≤ names.length → names.length = P.dim →
    ∃ T, mvarField names P logp values = .ok T ∧
      Spec.Tabulates T (P.fn logp) (values.map fun kv => kv.2.ravel)

/-- **C69, two variables.**  The table has the axes in order, but holds the density
with the two components exchanged. -/
theorem C69_two_partial (names : List Str) (P : Mvar) (logp : Bool) (values : Dict Str Arr)
    (xs ys : List ℝ) (hk : ∀ k, k ∈ Dict.keys values ↔ k ∈ names) (hd : P.dim = 2)
    (hv : (values.map fun kv => kv.2.ravel) = [xs, ys]) :
    ∃ T, mvarField names P logp values = .ok T ∧
      T.shape = [xs.length, ys.length].filter (· ≠ 1) ∧
      ∀ i j, i < xs.length → j < ys.length →
        T.get (squeezeIx [xs.length, ys.length] [i, j]) =
          P.fn logp [ys.getD j 0, xs.getD i 0] := by
  rw [mvarField_ok names P logp values hk, mvarProb_many P logp values (by
    have := congrArg List.length hv; simp at this; omega)]
  obtain ⟨T, h1, h2, h3⟩ := mvarMesh_lists P.dim (P.fn logp) (mvarOrder (values.map Prod.snd)) ys xs []
    (by rw [map_mvarOrder, List.map_map]; change mvarOrder (values.map fun kv => kv.2.ravel) = _
        rw [hv]; rfl) (by simp [hd])
  exact ⟨T, h1, h2, fun i j hi hj => h3 i j [] hi hj List.Forall₂.nil⟩

/-- **C69, three or more variables.**  With values of variables `us`, then of three
more, the axes are those of the last but two, the last but one, the others
backwards, and the last; the density is evaluated with the components in the order
last but one, last but two, the others backwards, last. -/
theorem C69_many_partial (names : List Str) (P : Mvar) (logp : Bool) (values : Dict Str Arr)
    (us : List (List ℝ)) (xs ys zs : List ℝ) (hk : ∀ k, k ∈ Dict.keys values ↔ k ∈ names)
    (hd : P.dim = us.length + 3)
    (hv : (values.map fun kv => kv.2.ravel) = us ++ [xs, ys, zs]) :
    ∃ T, mvarField names P logp values = .ok T ∧
      T.shape = ([xs.length, ys.length] ++ (us.map List.length).reverse ++ [zs.length]).filter (· ≠ 1) ∧
      ∀ i j k pos, i < xs.length → j < ys.length → k < zs.length → Spec.InTable us pos →
        T.get (squeezeIx ([xs.length, ys.length] ++ (us.map List.length).reverse ++ [zs.length])
            ([i, j] ++ pos.reverse ++ [k])) =
          P.fn logp ([ys.getD j 0, xs.getD i 0] ++ (Spec.point us pos).reverse ++ [zs.getD k 0]) := by
  rw [mvarField_ok names P logp values hk, mvarProb_many P logp values (by
    have := congrArg List.length hv; simp at this; omega)]
  obtain ⟨T, h1, h2, h3⟩ := mvarMesh_lists P.dim (P.fn logp) (mvarOrder (values.map Prod.snd)) ys xs
    (us.reverse ++ [zs])
    (by rw [map_mvarOrder, List.map_map]; change mvarOrder (values.map fun kv => kv.2.ravel) = _
        rw [hv, mvarOrder_three]) (by simp [hd])
  have hs : (xs :: ys :: (us.reverse ++ [zs])).map List.length =
      [xs.length, ys.length] ++ (us.map List.length).reverse ++ [zs.length] := by
    simp [List.map_reverse]
  rw [hs] at h2 h3
  refine ⟨T, h1, h2, ?_⟩
  intro i j k pos hi hj hk' hp
  have hl : pos.length = us.length := List.Forall₂.length_eq hp
  have h4 := h3 i j (pos.reverse ++ [k]) hi hj (by
    refine List.rel_append ?_ (List.Forall₂.cons hk' List.Forall₂.nil)
    exact List.rel_reverse hp)
  have h5 : Spec.point (us.reverse ++ [zs]) (pos.reverse ++ [k]) =
      (Spec.point us pos).reverse ++ [zs.getD k 0] := by
    unfold Spec.point
    rw [List.zipWith_append (by simp [hl]), List.reverse_zipWith (by simp [hl])]
    rfl
  rw [h5] at h4
  simpa using h4

/-- **C69, exchangeable components.**  The claim holds for two and for three
variables when the density does not change with the first two components
exchanged. -/
theorem C69_symmetric_partial (names : List Str) (P : Mvar) (logp : Bool) (values : Dict Str Arr)
    (hk : ∀ k, k ∈ Dict.keys values ↔ k ∈ names) (hd : P.dim = values.length)
    (hn : values.length = 2 ∨ values.length = 3)
    (hs : ∀ a b l, P.fn logp (a :: b :: l) = P.fn logp (b :: a :: l)) :
    ∃ T, mvarField names P logp values = .ok T ∧
      Spec.Tabulates T (P.fn logp) (values.map fun kv => kv.2.ravel) := by
  match values, hn with
  | [x, y], _ =>
    obtain ⟨T, h1, h2, h3⟩ := C69_two_partial names P logp [x, y] x.2.ravel y.2.ravel hk hd rfl
    refine ⟨T, h1, h2, ?_⟩
    intro pos hp
    unfold Spec.InTable at hp
    match pos, hp with
    | [i, j], hp =>
      simp only [List.map_cons, List.map_nil, List.forall₂_cons, List.forall₂_nil_left_iff, and_true] at hp
      have := h3 i j hp.1 hp.2
      rw [hs] at this
      exact this
  | [x, y, z], _ =>
    obtain ⟨T, h1, h2, h3⟩ := C69_many_partial names P logp [x, y, z] [] x.2.ravel y.2.ravel z.2.ravel
      hk hd rfl
    refine ⟨T, h1, h2, ?_⟩
    intro pos hp
    unfold Spec.InTable at hp
    match pos, hp with
    | [i, j, k], hp =>
      simp only [List.map_cons, List.map_nil, List.forall₂_cons, List.forall₂_nil_left_iff, and_true] at hp
      have := h3 i j k [] hp.1 hp.2.1 hp.2.2 List.Forall₂.nil
      simp only [List.cons_append, List.nil_append] at this
      rw [hs] at this
      exact this
  | [], hn => simp at hn
  | [_], hn => simp at hn
  | _ :: _ :: _ :: _ :: _, hn => simp at hn

/-- The array of these numbers. -/
def Spec.vec (xs : List ℝ) : Arr := ⟨[xs.length], fun j => xs.getD (j.headD 0) 0⟩

theorem Spec.ravel_vec (xs : List ℝ) : (Spec.vec xs).ravel = xs := by
  apply List.ext_getElem
  · simp [length_ravel, Spec.vec]
  · intro i h1 h2
    have := getD_ravel h1
    rw [List.getD_eq_getElem?_getD, List.getElem?_eq_getElem h1] at this
    simp only [Option.getD_some] at this
    rw [this]
    simp [Spec.vec, unravelIx, h2]

/-- A number. -/
def Spec.lone (x : ℝ) : Arr := ⟨[], fun _ => x⟩

theorem Spec.ravel_lone (x : ℝ) : (Spec.lone x).ravel = [x] := rfl

/-- Two components, of which the density is the first. -/
def Spec.firstOf (n : ℕ) : Mvar := ⟨n, fun l => l.headD 0, fun l => l.headD 0⟩

/-- **C69, negation.**  With two numbers the density is taken at the exchanged
point. -/
theorem C69_claim_fails : ¬ C69_claim := by
  intro h
  obtain ⟨T, h1, h2, h3⟩ := h [['x'], ['y']] (Spec.firstOf 2) false
    [(['x'], Spec.lone 1), (['y'], Spec.lone 2)] rfl (by decide) (by simp) rfl
  obtain ⟨T', h1', _, h3'⟩ := C69_two_partial [['x'], ['y']] (Spec.firstOf 2) false
    [(['x'], Spec.lone 1), (['y'], Spec.lone 2)] [1] [2] (by simp [Dict.keys]) rfl rfl
  rw [h1] at h1'
  cases h1'
  have a := h3 [0, 0] (by simp [Spec.InTable, Spec.ravel_lone])
  have b := h3' 0 0 (by simp) (by simp)
  simp only [List.map_cons, List.map_nil, Spec.ravel_lone] at a
  rw [b] at a
  norm_num [Mvar.fn, Spec.firstOf, Spec.point] at a

/-- **C69 (weaker intended).**  The same for densities that do not change with any
reordering of the components. -/
def C69_axes_claim : Prop :=
  ∀ (names : List Str) (P : Mvar) (logp : Bool) (values : Dict Str Arr),
    Dict.keys values = names → names.Nodup → 2 ≤ names.length → names.length = P.dim →
    (∀ l l', l.Perm l' → P.fn logp l = P.fn logp l') →
    ∃ T, mvarField names P logp values = .ok T ∧
      Spec.Tabulates T (P.fn logp) (values.map fun kv => kv.2.ravel)

/-- **C69, negation.**  With four variables of which the first has three values and
the others two, the axis of three comes third. -/
theorem C69_axes_claim_fails : ¬ C69_axes_claim := by
  intro h
  obtain ⟨T, h1, h2, -⟩ := h [['w'], ['x'], ['y'], ['z']] ⟨4, List.sum, List.sum⟩ false
    [(['w'], Spec.vec [0, 1, 2]), (['x'], Spec.vec [0, 1]), (['y'], Spec.vec [0, 1]),
      (['z'], Spec.vec [0, 1])] rfl (by decide) (by simp) rfl (fun l l' hl => hl.sum_eq)
  obtain ⟨T', h1', h2', -⟩ := C69_many_partial [['w'], ['x'], ['y'], ['z']] ⟨4, List.sum, List.sum⟩ false
    [(['w'], Spec.vec [0, 1, 2]), (['x'], Spec.vec [0, 1]), (['y'], Spec.vec [0, 1]),
      (['z'], Spec.vec [0, 1])] [[0, 1, 2]] [0, 1] [0, 1] [0, 1] (by simp [Dict.keys]) rfl
      (by simp only [List.map_cons, List.map_nil, Spec.ravel_vec]; rfl)
  rw [h1] at h1'
  cases h1'
  rw [h2] at h2'
  simp [Spec.ravel_vec] at h2'

/-- **C69 (intended).**  The order in which the values are listed does not matter to
the probability of one point. -/
def C69_listing_claim : Prop :=
  ∀ (names : List Str) (P : Mvar) (values values' : Dict Str Arr),
    (Dict.keys values).Nodup → values.Perm values' → (∀ kv ∈ values, kv.2.shape = []) →
    names.length = P.dim → ∀ T T', mvarField names P false values = .ok T →
      mvarField names P false values' = .ok T' → T.get [] = T'.get []

theorem C69_listing_claim_fails : ¬ C69_listing_claim := by
  intro h
  obtain ⟨T, h1, _, h3⟩ := C69_two_partial [['x'], ['y']] (Spec.firstOf 2) false
    [(['x'], Spec.lone 1), (['y'], Spec.lone 2)] [1] [2] (by simp [Dict.keys]) rfl rfl
  obtain ⟨T', h1', _, h3'⟩ := C69_two_partial [['x'], ['y']] (Spec.firstOf 2) false
    [(['y'], Spec.lone 2), (['x'], Spec.lone 1)] [2] [1] (by simp [Dict.keys, or_comm]) rfl rfl
  have := h _ _ _ _ (by simp [Dict.keys]) (List.Perm.swap _ _ []) (by simp [Spec.lone]) rfl T T' h1 h1'
  have a := h3 0 0 (by simp) (by simp)
  have b := h3' 0 0 (by simp) (by simp)
  simp only [squeezeIx] at a b
  norm_num [Mvar.fn, Spec.firstOf] at a b
  rw [a, b] at this
  norm_num at this

/-- **C69, listed backwards.**  Values listed in the opposite order of two variables
give the density at the right points, with the axes in the order of listing. -/
theorem C69_backwards (names : List Str) (P : Mvar) (logp : Bool) (values : Dict Str Arr)
    (xs ys : List ℝ) (hk : ∀ k, k ∈ Dict.keys values ↔ k ∈ names) (hd : P.dim = 2)
    (hv : (values.map fun kv => kv.2.ravel) = [ys, xs]) :
    ∃ T, mvarField names P logp values = .ok T ∧
      T.shape = [ys.length, xs.length].filter (· ≠ 1) ∧
      ∀ i j, i < xs.length → j < ys.length →
        T.get (squeezeIx [ys.length, xs.length] [j, i]) =
          P.fn logp [xs.getD i 0, ys.getD j 0] := by
  obtain ⟨T, h1, h2, h3⟩ := C69_two_partial names P logp values ys xs hk hd hv
  exact ⟨T, h1, h2, fun i j hi hj => h3 j i hj hi⟩

/-- **C69, logarithms.**  If the log density is the logarithm of the density, so are
the tables. -/
theorem C69_log (names : List Str) (P : Mvar) (values : Dict Str Arr) (T L : Arr)
    (hlog : ∀ l, P.logpdf l = Real.log (P.pdf l))
    (hT : mvarField names P false values = .ok T) (hL : mvarField names P true values = .ok L) :
    L.shape = T.shape ∧ ∀ j, L.get j = Real.log (T.get j) := by
  unfold mvarField at hT hL
  split at hT
  · rename_i hc
    rw [if_pos hc] at hL
    match values with
    | [] => simp [mvarProb] at hT
    | [a] =>
      simp only [mvarProb, mvarSingle, List.map_cons, List.map_nil] at hT hL
      split at hT
      · rename_i hc'
        rw [if_pos hc'] at hL
        cases hT; cases hL
        exact ⟨rfl, fun j => hlog _⟩
      · cases hT
    | a :: b :: l =>
      simp only [mvarProb, mvarMesh, List.map_cons] at hT hL
      split at hT
      · rename_i hc'
        rw [if_pos hc'] at hL
        cases hT; cases hL
        exact ⟨rfl, fun j => hlog _⟩
      · cases hT
  · cases hT

/-- **C69, refusals.**  Names other than those of the variables are refused, … -/
theorem C69_names_refused (names : List Str) (P : Mvar) (logp : Bool) (values : Dict Str Arr)
    (h : ¬ ∀ k, k ∈ Dict.keys values ↔ k ∈ names) : Raises (mvarField names P logp values) := by
  unfold mvarField
  rw [if_neg]
  · exact ⟨_, rfl⟩
  · intro hc
    simp only [Bool.and_eq_true, List.all_eq_true, decide_eq_true_eq] at hc
    apply h
    intro k
    constructor
    · intro hk
      obtain ⟨kv, hkv, rfl⟩ := List.mem_map.1 hk
      exact hc.1 kv hkv
    · exact hc.2 k

theorem length_mvarOrder {α : Type} (l : List α) : (mvarOrder l).length = l.length := by
  unfold mvarOrder
  dsimp only
  split
  · rename_i h
    simp at h ⊢; omega
  · simp

/-- … and so are several variables of another number than the components. -/
theorem C69_number_refused (names : List Str) (P : Mvar) (logp : Bool) (values : Dict Str Arr)
    (h2 : 2 ≤ values.length) (hd : values.length ≠ P.dim) :
    Raises (mvarField names P logp values) := by
  by_cases h : ∀ k, k ∈ Dict.keys values ↔ k ∈ names
  · rw [mvarField_ok names P logp values h, mvarProb_many P logp values h2]
    unfold mvarMesh
    rw [if_neg]
    · exact ⟨_, rfl⟩
    · simp only [length_mvarOrder, List.length_map]
      omega
  · exact C69_names_refused names P logp values h

/-- Non-vacuity of `C69_symmetric_partial`: a density of the sum of two components. -/
example : ∃ (P : Mvar) (values : Dict Str Arr), (∀ k, k ∈ Dict.keys values ↔ k ∈ [['x'], ['y']]) ∧
    P.dim = values.length ∧ (values.length = 2 ∨ values.length = 3) ∧
    (∀ a b l, P.fn false (a :: b :: l) = P.fn false (b :: a :: l)) ∧ P.fn false [1, 0] ≠ P.fn false [1, 1] :=
  ⟨⟨2, List.sum, List.sum⟩, [(['x'], Spec.vec [0, 1]), (['y'], Spec.vec [2, 3])],
    by simp [Dict.keys], rfl, Or.inl rfl, by intro a b l; simp [Mvar.fn]; ring, by simp [Mvar.fn]⟩

/-- **C69 (intended), one variable.**  A field of one variable with a density of one
component. -/
def C69_single_claim : Prop :=
  ∀ (k : Str) (P : Mvar) (logp : Bool) (xs : List ℝ), P.dim = 1 →
    ∃ T, mvarField [k] P logp [(k, Spec.vec xs)] = .ok T ∧ Spec.Tabulates T (P.fn logp) [xs]

/-- **C69, one variable.**  A single number has its density, but two or more values
are always refused. -/
theorem C69_single_partial (k : Str) (P : Mvar) (logp : Bool) (hd : P.dim = 1) :
    (∀ a : Arr, a.shape = [] → ∃ T, mvarField [k] P logp [(k, a)] = .ok T ∧ T.shape = [] ∧
      T.get [] = P.fn logp [a.get []]) ∧
    (∀ xs : List ℝ, xs.length ≠ 1 → Raises (mvarField [k] P logp [(k, Spec.vec xs)])) := by
  constructor
  · intro a ha
    rw [mvarField_ok _ _ _ _ (by simp [Dict.keys])]
    refine ⟨_, if_pos (Or.inr (by rw [ha]; rfl)), by rw [ha]; rfl, ?_⟩
    simp [squeeze, ha, Mvar.fn, hd]
  · intro xs hx
    rw [mvarField_ok _ _ _ _ (by simp [Dict.keys])]
    refine ⟨.value, if_neg ?_⟩
    simp [Spec.vec, hd, hx]

theorem C69_single_claim_fails : ¬ C69_single_claim := by
  intro h
  obtain ⟨T, hT, -⟩ := h ['x'] (Spec.firstOf 1) false [0, 1] rfl
  obtain ⟨e, he⟩ := (C69_single_partial ['x'] (Spec.firstOf 1) false rfl).2 [0, 1] (by simp)
  rw [hT] at he
  cases he

/-! Functions (`Func`) of a multivariate distribution. -/

/-- **C69, functions of positional arguments.**  The density is at the right points
but the axes of the first two arguments are exchanged. -/
theorem C69_func_positional_partial (P : Mvar) (logp : Bool) (args : List Arr) (xs ys : List ℝ)
    (rest : List (List ℝ)) (hv : args.map Arr.ravel = xs :: ys :: rest) (hd : rest.length + 2 = P.dim) :
    ∃ T, mvarFunc P logp (.args args) = .ok T ∧
      T.shape = ((ys :: xs :: rest).map List.length).filter (· ≠ 1) ∧
      ∀ i j pos, i < xs.length → j < ys.length → Spec.InTable rest pos →
        T.get (squeezeIx ((ys :: xs :: rest).map List.length) (j :: i :: pos)) =
          P.fn logp (xs.getD i 0 :: ys.getD j 0 :: Spec.point rest pos) := by
  obtain ⟨T, h1, h2, h3⟩ := mvarMesh_lists P.dim (P.fn logp) args xs ys rest hv hd
  refine ⟨T, ?_, h2, fun i j pos hi hj hp => h3 j i pos hj hi hp⟩
  have : args.isEmpty = false := by
    match args with
    | [] => simp at hv
    | _ :: _ => rfl
  simp only [mvarFunc, Bool.false_and, if_false, this, Bool.false_eq_true]
  exact h1

/-- **C69, functions of keywords, several values.**  As for fields. -/
theorem C69_func_keywords_partial (names : List Str) (P : Mvar) (logp : Bool) (values : Dict Str Arr)
    (hk : ∀ k, k ∈ Dict.keys values ↔ k ∈ names) (h2 : 2 ≤ values.length)
    (hv : ∃ kv ∈ values, kv.2.ravel.length ≠ 1) :
    mvarFunc P logp (.kwds values) = mvarField names P logp values := by
  rw [mvarField_ok names P logp values hk, mvarProb_many P logp values h2]
  have he : values.isEmpty = false := by
    match values with
    | [] => simp at h2
    | _ :: _ => rfl
  have ha : ((values.map Prod.snd).all fun a => decide (a.shape.prod = 1)) = false := by
    rw [List.all_eq_false]
    obtain ⟨kv, hkv, hne⟩ := hv
    exact ⟨kv.2, List.mem_map_of_mem hkv, by simpa [length_ravel] using hne⟩
  have hl : (mvarOrder (values.map Prod.snd)).isEmpty = false := by
    rw [← Bool.not_eq_true, List.isEmpty_iff_length_eq_zero, length_mvarOrder]
    simp
    rintro rfl
    simp at h2
  simp only [mvarFunc, he, ha, Bool.not_false, Bool.and_self, if_true, hl, Bool.false_eq_true, if_false]
  rfl

theorem mvarMesh_ones (dim : ℕ) (f : List ℝ → ℝ) (arrs : List Arr) (h2 : 2 ≤ arrs.length)
    (hd : arrs.length = dim) (h : ∀ a ∈ arrs, a.ravel.length = 1) :
    ∃ T, mvarMesh dim f arrs = .ok T ∧ T.shape = [] ∧
      T.get [] = f (arrs.map fun a => a.ravel.headD 0) := by
  have hone : ∀ l : List Arr, (∀ a ∈ l, a.ravel.length = 1) →
      (l.map Arr.ravel).map List.length = List.replicate l.length 1 := by
    intro l hl
    rw [List.map_map, List.eq_replicate_iff]
    simpa using hl
  have hfil : ∀ n j, ((List.replicate n 1).filter (· ≠ 1) : List ℕ) = [] ∧
      squeezeIx (List.replicate n 1) j = [] := by
    intro n j
    constructor
    · simp
    · unfold squeezeIx
      rw [List.map_eq_nil_iff, List.filter_eq_nil_iff]
      intro x hx
      have := List.of_mem_zip (show (x.1, x.2) ∈ _ from hx)
      simpa using List.eq_of_mem_replicate this.1
  match arrs with
  | [] => simp at h2
  | [_] => simp at h2
  | p :: q :: rest =>
    obtain ⟨T, h1, hs, hg⟩ := mvarMesh_lists dim f (p :: q :: rest) p.ravel q.ravel (rest.map Arr.ravel)
      rfl (by simpa using hd)
    have hl : (q.ravel :: p.ravel :: rest.map Arr.ravel).map List.length =
        List.replicate (rest.length + 2) 1 :=
      hone (q :: p :: rest) (fun a ha => h a (by simp at ha ⊢; tauto))
    rw [hl] at hs hg
    have hw : ∀ l : List Arr, (∀ a ∈ l, a.ravel.length = 1) →
        Spec.InTable (l.map Arr.ravel) (l.map fun _ => 0) ∧
        Spec.point (l.map Arr.ravel) (l.map fun _ => 0) = l.map fun a => a.ravel.headD 0 := by
      intro l hl
      constructor
      · unfold Spec.InTable
        rw [List.forall₂_map_left_iff, List.forall₂_map_right_iff]
        exact List.forall₂_same.2 fun a ha => by rw [hl a ha]; exact Nat.one_pos
      · unfold Spec.point
        rw [List.zipWith_map, List.zipWith_self]
        apply List.map_congr_left
        intro a _
        cases a.ravel <;> rfl
    obtain ⟨hw1, hw2⟩ := hw rest fun a ha => h a (by simp [ha])
    have := hg 0 0 (rest.map fun _ => 0) (by rw [h q (by simp)]; exact Nat.one_pos)
      (by rw [h p (by simp)]; exact Nat.one_pos) hw1
    rw [(hfil _ _).2, hw2] at this
    refine ⟨T, h1, by rw [hs]; exact (hfil _ []).1, ?_⟩
    rw [this]
    have hh : ∀ l : List ℝ, l.getD 0 0 = l.headD 0 := by intro l; cases l <;> rfl
    simp only [hh, List.map_cons]

theorem meshGet_flat (arrs : List Arr) (i : ℕ) (j : List ℕ) :
    meshGet (arrs.map Arr.flat) i j = meshGet arrs i j := by
  unfold meshGet
  rw [List.length_map, List.getElem?_map]
  cases arrs[i]? with
  | none => rfl
  | some a =>
    cases j[meshAxis arrs.length i]? with
    | none => rfl
    | some n => simp [Arr.flat, unravelIx]

theorem mvarMesh_flat (dim : ℕ) (f : List ℝ → ℝ) (arrs : List Arr) :
    mvarMesh dim f (arrs.map Arr.flat) = mvarMesh dim f arrs := by
  unfold mvarMesh
  simp only [List.length_map, meshGet_flat, List.map_map]
  congr 5
  simp [Function.comp_def, Arr.flat]

/-- **C69, functions of a dictionary.**  As of keywords. -/
theorem C69_func_dictionary (P : Mvar) (logp : Bool) (values : Dict Str Arr) :
    mvarFunc P logp (.dict values) = mvarFunc P logp (.kwds values) := by
  cases hv : values with
  | nil => rfl
  | cons kv l =>
    rw [← hv]
    have he : values.isEmpty = false := by rw [hv]; rfl
    have hm : (values.map fun kv => kv.2.flat) = (values.map Prod.snd).map Arr.flat := by
      rw [List.map_map]; rfl
    have hall : ((values.map Prod.snd).map Arr.flat).all (fun a => decide (a.shape.prod = 1)) =
        (values.map Prod.snd).all fun a => decide (a.shape.prod = 1) := by
      rw [List.all_map]
      simp [Function.comp_def, Arr.flat]
    simp only [mvarFunc, he, Bool.not_false, hm, hall]
    by_cases hc : (true && !((values.map Prod.snd).all fun a => decide (a.shape.prod = 1))) = true
    · rw [if_pos hc, if_pos hc, ← map_mvarOrder, mvarMesh_flat, List.isEmpty_map]
    · rw [if_neg hc, if_neg hc, mvarMesh_flat, List.isEmpty_map]

/-- **C69, functions of keywords, single values.**  The density is at the right
point. -/
theorem C69_func_numbers (P : Mvar) (logp : Bool) (values : Dict Str Arr)
    (h2 : 2 ≤ values.length) (hd : values.length = P.dim)
    (hv : ∀ kv ∈ values, kv.2.ravel.length = 1) :
    ∃ T, mvarFunc P logp (.kwds values) = .ok T ∧ T.shape = [] ∧
      T.get [] = P.fn logp (values.map fun kv => kv.2.ravel.headD 0) := by
  obtain ⟨T, h1, hs, hg⟩ := mvarMesh_ones P.dim (P.fn logp) (values.map Prod.snd) (by simpa using h2)
    (by simpa using hd) (by simpa using fun a k hk => hv (k, a) hk)
  refine ⟨T, ?_, hs, by rw [hg, List.map_map]; rfl⟩
  have hne : (values.map Prod.snd).isEmpty = false := by
    match values with
    | [] => simp at h2
    | _ :: _ => rfl
  have ha : ((values.map Prod.snd).all fun a => decide (a.shape.prod = 1)) = true := by
    rw [List.all_eq_true]
    intro a ha
    obtain ⟨kv, hkv, rfl⟩ := List.mem_map.1 ha
    simpa [length_ravel] using hv kv hkv
  simp only [mvarFunc, ha, Bool.not_true, Bool.and_false, Bool.false_eq_true, if_false, hne]
  exact h1

/-- **C69 (intended).**  A function and a field of the same density agree. -/
def C69_agree_claim : Prop :=
  ∀ (names : List Str) (P : Mvar) (logp : Bool) (values : Dict Str Arr),
    Dict.keys values = names → names.Nodup → 2 ≤ names.length → names.length = P.dim →
    mvarFunc P logp (.kwds values) = mvarField names P logp values

/-- **C69, negation.**  They differ at single numbers. -/
theorem C69_agree_claim_fails : ¬ C69_agree_claim := by
  intro h
  have := h [['x'], ['y']] (Spec.firstOf 2) false
    [(['x'], Spec.lone 1), (['y'], Spec.lone 2)] rfl (by decide) (by simp) rfl
  obtain ⟨T, h1, _, h3⟩ := C69_two_partial [['x'], ['y']] (Spec.firstOf 2) false
    [(['x'], Spec.lone 1), (['y'], Spec.lone 2)] [1] [2] (by simp [Dict.keys]) rfl rfl
  obtain ⟨T', h1', _, h3'⟩ := C69_func_numbers (Spec.firstOf 2) false
    [(['x'], Spec.lone 1), (['y'], Spec.lone 2)] (by simp) rfl (by simp [Spec.ravel_lone])
  rw [h1, h1'] at this
  cases this
  have b := h3 0 0 (by simp) (by simp)
  simp only [squeezeIx] at b
  norm_num [Mvar.fn, Spec.firstOf, Spec.ravel_lone] at b h3'
  rw [h3'] at b
  norm_num at b

/-- Values that meet the hypotheses: three of `x`, two of `y`, and three variables. -/
example : ∃ T, mvarField [['x'], ['y']] (Spec.firstOf 2) true
    [(['x'], Spec.vec [0, 1, 2]), (['y'], Spec.vec [5, 6])] = .ok T ∧ T.shape = [3, 2] ∧
    T.get [2, 0] = 5 := by
  obtain ⟨T, h1, h2, h3⟩ := C69_two_partial [['x'], ['y']] (Spec.firstOf 2) true
    [(['x'], Spec.vec [0, 1, 2]), (['y'], Spec.vec [5, 6])] [0, 1, 2] [5, 6] (by simp [Dict.keys]) rfl
    (by simp only [List.map_cons, List.map_nil, Spec.ravel_vec])
  refine ⟨T, h1, by rw [h2]; rfl, ?_⟩
  have := h3 2 0 (by simp) (by simp)
  simpa [squeezeIx, Mvar.fn, Spec.firstOf] using this

end Probayes
