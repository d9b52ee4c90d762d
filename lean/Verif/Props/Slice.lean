/-
Property C64: slicing a table of probabilities by the values of its variables
(`rf_utils.slice_by_keyvals`), and the function returned by
`likelihoods.bool_perm_freq`.
-/
import Mathlib.Data.List.Sort
import Verif.Lemmas.Slice
import Verif.Lemmas.PDBuild
import Verif.Props.Likelihoods

namespace Probayes

namespace Spec

/-- A specification that suits a table: both name the same variables; every
variable of the table has an axis of its own, of the length of its values; a
variable is specified either by a number that occurs once among its values and
has no axis in the result, or by all its values along an axis of the result (of
`n` axes, none if there are no such variables).  Axes are listed in increasing
order, and other axes of the table have size one. -/
structure Aligned {α : Type} [DecidableEq α] (spec vals : Dict Str (Cell α)) (shape : List ℕ)
    (vdims sdims : Dict Str (Option ℕ)) (n : ℕ) : Prop where
  nonempty : spec ≠ []
  nodupV : vdims.keys.Nodup
  nodupS : sdims.keys.Nodup
  keysVals : ∀ k, k ∈ spec.keys ↔ k ∈ vals.keys
  keysV : ∀ k, k ∈ spec.keys ↔ k ∈ vdims.keys
  keysS : ∀ k, k ∈ spec.keys ↔ k ∈ sdims.keys
  each : ∀ k ∈ spec.keys, ∃ m xs a, Dict.get? vals k = some (.array m xs) ∧
    Dict.get? vdims k = some (some a) ∧ shape[a]? = some xs.length ∧
    ((∃ x, Dict.get? spec k = some (.scalar x) ∧ Dict.get? sdims k = some none ∧ xs.count x = 1) ∨
     (∃ b, Dict.get? spec k = some (.array n xs) ∧ Dict.get? sdims k = some (some b) ∧ b < n))
  others : ∀ (a m : ℕ), shape[a]? = some m → m = 1 ∨ ∃ k, Dict.get? vdims k = some (some a)
  incV : (vdims.filterMap Prod.snd).Pairwise (· < ·)
  incS : (sdims.filterMap Prod.snd).Pairwise (· < ·)
  axes : n = 0 ∨ ∃ k m xs, Dict.get? spec k = some (.array m xs)

/-- The variables with an axis in the result have their axes in the same order
in the table. -/
def SameOrder (vdims sdims : Dict Str (Option ℕ)) : Prop :=
  ∀ (k l : Str) (a b c d : ℕ), Dict.get? vdims k = some (some a) → Dict.get? vdims l = some (some b) →
    Dict.get? sdims k = some (some c) → Dict.get? sdims l = some (some d) → (a < b ↔ c < d)

/-- Entry `i` of the table is the one wanted at entry `j` of the result. -/
def Picks {α : Type} (spec vals : Dict Str (Cell α)) (vdims sdims : Dict Str (Option ℕ))
    (i j : List ℕ) : Prop :=
  ∀ (k : Str) (a : ℕ), Dict.get? vdims k = some (some a) →
    (∀ b : ℕ, Dict.get? sdims k = some (some b) → i[a]? = j[b]?) ∧
    (∀ x m xs, Dict.get? spec k = some (.scalar x) → Dict.get? vals k = some (.array m xs) →
      ∃ p : ℕ, i[a]? = some p ∧ xs[p]? = some x)

end Spec

/-! ### Lemmas -/

section lemmas

theorem pairwise_keys {dims : Dict Str (Option ℕ)} (hn : dims.keys.Nodup)
    (h : (dims.filterMap Prod.snd).Pairwise (· < ·)) :
    dims.keys.Pairwise fun k l => ∀ a b : ℕ, Dict.get? dims k = some (some a) →
      Dict.get? dims l = some (some b) → a < b := by
  rw [List.pairwise_filterMap] at h
  rw [Dict.keys, List.pairwise_map]
  refine h.imp_of_mem ?_
  intro x y hx hy hxy a b ha hb
  rw [Dict.get?_of_mem hn hx] at ha
  rw [Dict.get?_of_mem hn hy] at hb
  exact hxy a (Option.some.inj ha) b (Option.some.inj hb)

theorem dims_inj {dims : Dict Str (Option ℕ)} (hn : dims.keys.Nodup)
    (h : (dims.filterMap Prod.snd).Pairwise (· < ·)) {k l : Str} {a : ℕ}
    (hk : Dict.get? dims k = some (some a)) (hl : Dict.get? dims l = some (some a)) : k = l := by
  by_contra hkl
  have hp := pairwise_keys hn h
  have mk : k ∈ dims.keys := Dict.get?_isSome.mp (by rw [hk]; rfl)
  have ml : l ∈ dims.keys := Dict.get?_isSome.mp (by rw [hl]; rfl)
  have hp' : dims.keys.Pairwise fun k l => (Dict.get? dims k = some (some a) →
      Dict.get? dims l = some (some a) → False) := hp.imp (fun h h1 h2 => lt_irrefl a (h a a h1 h2))
  haveI : Std.Symm fun k l => (Dict.get? dims k = some (some a) →
      Dict.get? dims l = some (some a) → False) := ⟨fun _ _ h h1 h2 => h h2 h1⟩
  exact hp'.forall mk ml hkl hk hl

theorem valsNdim_ge {dims : Dict Str (Option ℕ)} {k : Str} {a : ℕ} (h : (k, some a) ∈ dims) : a ≤ valsNdim dims := by
  have aux : ∀ (l : Dict Str (Option ℕ)) (m : ℕ), (m ≤ l.foldl (fun m kd => match kd.2 with
      | some d => max m d | none => m) m) ∧ ((k, some a) ∈ l → a ≤ l.foldl (fun m kd => match kd.2 with
      | some d => max m d | none => m) m) := by
    intro l
    induction l with
    | nil => intro m; simp
    | cons kd l ih =>
      intro m
      rw [List.foldl_cons]
      refine ⟨le_trans ?_ (ih _).1, ?_⟩
      · split
        · exact le_max_left _ _
        · exact le_rfl
      · intro hm
        rcases List.mem_cons.mp hm with rfl | hm
        · exact le_trans (le_max_right m a) (ih _).1
        · exact (ih _).2 hm
  exact (aux dims 0).2 h

theorem valsNdim_lt {dims : Dict Str (Option ℕ)} {N : ℕ} (hN : 0 < N)
    (h : ∀ k a, (k, some a) ∈ dims → a < N) : valsNdim dims < N := by
  have aux : ∀ (l : Dict Str (Option ℕ)) (m : ℕ), m < N → (∀ k a, (k, some a) ∈ l → a < N) →
      l.foldl (fun m kd => match kd.2 with | some d => max m d | none => m) m < N := by
    intro l
    induction l with
    | nil => intro m hm _; exact hm
    | cons kd l ih =>
      intro m hm hl
      rw [List.foldl_cons]
      apply ih
      · obtain ⟨k, d⟩ := kd
        cases d with
        | none => exact hm
        | some d => exact max_lt hm (hl k d (by simp))
      · exact fun k a hk => hl k a (by simp [hk])
  exact aux dims 0 hN h

theorem slice_prod_eq {κ : Type} (s t : List ℕ) (Ks : List κ) (A B : κ → ℕ) (hA : (Ks.map A).Pairwise (· < ·))
    (hB : (Ks.map B).Pairwise (· < ·)) (hs : ∀ n m : ℕ, s[n]? = some m → n ∉ Ks.map A → m = 1)
    (ht : ∀ n m : ℕ, t[n]? = some m → n ∉ Ks.map B → m = 1)
    (hst : ∀ k ∈ Ks, s[A k]? = t[B k]?) : s.prod = t.prod := by
  rw [prod_without_ones s, prod_without_ones t,
    filter_positions (fun n => decide (n ≠ 1)) s _ hA (fun n x h1 h2 => by simpa using hs n x h1 h2),
    filter_positions (fun n => decide (n ≠ 1)) t _ hB (fun n x h1 h2 => by simpa using ht n x h1 h2)]
  congr 2
  rw [List.filterMap_map, List.filterMap_map]
  exact List.filterMap_congr (fun k hk => hst k hk)

theorem slice_ravel_eq {κ : Type} (s t i j : List ℕ) (Ks : List κ) (A B : κ → ℕ) (hA : (Ks.map A).Pairwise (· < ·))
    (hB : (Ks.map B).Pairwise (· < ·)) (hs : ∀ n m : ℕ, s[n]? = some m → n ∉ Ks.map A → m = 1)
    (ht : ∀ n m : ℕ, t[n]? = some m → n ∉ Ks.map B → m = 1)
    (hst : ∀ k ∈ Ks, s[A k]? = t[B k]?) (hij : ∀ k ∈ Ks, i[A k]? = j[B k]?)
    (hi : i ∈ idx s) (hj : j ∈ idx t) : ravelIx s i = ravelIx t j := by
  rw [ravel_without_ones hi, ravel_without_ones hj]
  have : ((s.zip i).filter fun p => decide (p.1 ≠ 1)) = (t.zip j).filter fun p => decide (p.1 ≠ 1) := by
    rw [filter_positions (fun p : ℕ × ℕ => decide (p.1 ≠ 1)) (s.zip i) _ hA,
      filter_positions (fun p : ℕ × ℕ => decide (p.1 ≠ 1)) (t.zip j) _ hB]
    · congr 1
      rw [List.filterMap_map, List.filterMap_map]
      apply List.filterMap_congr
      intro k hk
      simp only [Function.comp, List.zip, List.getElem?_zipWith, hst k hk, hij k hk]
    · intro n x h1 h2
      have := (List.getElem?_zip_eq_some.mp h1).1
      simpa using ht n x.1 this h2
    · intro n x h1 h2
      have := (List.getElem?_zip_eq_some.mp h1).1
      simpa using hs n x.1 this h2
  rw [this]

/-- The selections made for scalar specifications. -/
def selOf {α : Type} [DecidableEq α] (spec vals : Dict Str (Cell α)) (vdims : Dict Str (Option ℕ)) (k : Str) :
    Option (ℕ × Sel) :=
  match Dict.get? spec k, Dict.get? vals k, Dict.get? vdims k with
  | some (.scalar x), some v, some (some a) => (hits v.flat x).head?.map fun p => (a, .at p)
  | _, _, _ => none

/-- The sizes set for array specifications. -/
def sizeOf' {α : Type} (spec : Dict Str (Cell α)) (sdims : Dict Str (Option ℕ)) (k : Str) : Option (ℕ × ℕ) :=
  match Dict.get? spec k, Dict.get? sdims k with
  | some (.array _ xs), some (some b) => some (b, xs.length)
  | _, _ => none

variable {α : Type} [DecidableEq α] {spec vals : Dict Str (Cell α)} {shape : List ℕ}
  {vd sd : Dict Str (Option ℕ)} {n : ℕ}

theorem loop_ok (h : Spec.Aligned spec vals shape vd sd n) (ks : List Str) (hks : ∀ k ∈ ks, k ∈ spec.keys)
    (st : List Sel × List ℕ) (h1 : ∀ k a, Dict.get? vd k = some (some a) → a < st.1.length)
    (h2 : st.2.length = n) :
    sliceLoop spec vals sd vd ks st =
      .ok (some (ks.foldl (assign (selOf spec vals vd)) st.1, ks.foldl (assign (sizeOf' spec sd)) st.2)) := by
  induction ks generalizing st with
  | nil => rfl
  | cons k ks ih =>
    obtain ⟨m, xs, a, e1, e2, e3, e4⟩ := h.each k (hks k (by simp))
    have ih' := fun st => ih (fun k' hk' => hks k' (by simp [hk'])) st
    rcases e4 with ⟨x, f1, f2, f3⟩ | ⟨b, f1, f2, f3⟩
    · obtain ⟨p, hp, _⟩ := hits_one f3
      have g1 : selOf spec vals vd k = some (a, .at p) := by
        simp [selOf, f1, e1, e2, Cell.flat, hp]
      have g2 : sizeOf' spec sd k = none := by simp [sizeOf', f1]
      simp only [sliceLoop, f1, e1, f2, e2, sliceScalar, sliceKey, Cell.flat, hp, setSel, h1 k a e2, if_true,
        List.foldl_cons, assign, g1, g2]
      exact ih' (st.1.set a (.at p), st.2) (by simpa using h1) h2
    · have g1 : selOf spec vals vd k = none := by simp [selOf, f1]
      have g2 : sizeOf' spec sd k = some (b, xs.length) := by simp [sizeOf', f1, f2]
      have hb : b < st.2.length := by omega
      simp only [sliceLoop, f1, e1, f2, e2, sliceScalar, sliceKey, Cell.flat, eqAll_self, hb, if_true,
        List.foldl_cons, assign, g1, g2]
      exact ih' (st.1, st.2.set b xs.length) h1 (by simpa using h2)

theorem specNdim_ok (h : Spec.Aligned spec vals shape vd sd n) : specNdim spec sd = .ok n := by
  have key : ∀ (l : Dict Str (Option ℕ)) (m : ℕ), (∀ kd ∈ l, kd ∈ sd) →
      l.foldlM (specNdimStep spec) m =
        .ok (if l.any (fun kd => kd.2.isSome) then n else m) := by
    intro l
    induction l with
    | nil => intro m _; rfl
    | cons kd l ih =>
      intro m hl
      obtain ⟨k, d⟩ := kd
      have hget := Dict.get?_of_mem h.nodupS (hl (k, d) (by simp))
      have hk : k ∈ spec.keys := (h.keysS k).mpr (Dict.get?_isSome.mp (by rw [hget]; rfl))
      obtain ⟨_, xs, a, e1, e2, e3, e4⟩ := h.each k hk
      rw [List.foldlM_cons]
      rcases e4 with ⟨x, f1, f2, f3⟩ | ⟨b, f1, f2, f3⟩
      · rw [hget] at f2
        cases f2
        have : specNdimStep spec m (k, none) = .ok m := by simp [specNdimStep, f1]
        rw [this]
        show l.foldlM (specNdimStep spec) m = _
        rw [ih m (fun kd hkd => hl kd (by simp [hkd]))]
        simp only [List.any_cons, Option.isSome_none, Bool.false_or]
      · rw [hget] at f2
        cases f2
        have : specNdimStep spec m (k, some b) = .ok n := by
          simp [specNdimStep, f1]; omega
        rw [this]
        show l.foldlM (specNdimStep spec) n = _
        rw [ih n (fun kd hkd => hl kd (by simp [hkd]))]
        simp
  rw [specNdim, key sd 0 (fun _ h => h)]
  congr 1
  split
  · rfl
  · rename_i hany
    rcases h.axes with h0 | ⟨k, m, xs, hk⟩
    · exact h0.symm
    · exfalso
      have hks : k ∈ spec.keys := Dict.get?_isSome.mp (by rw [hk]; rfl)
      obtain ⟨_, xs, a, e1, e2, e3, e4⟩ := h.each k hks
      rcases e4 with ⟨x, f1, f2, f3⟩ | ⟨b, f1, f2, f3⟩
      · rw [hk] at f1; cases f1
      · exact hany (List.any_eq_true.mpr ⟨(k, some b), Dict.get?_mem f2, rfl⟩)

theorem sameKeys_of {V W : Type} {a : Dict Str V} {b : Dict Str W} (h : ∀ k, k ∈ a.keys ↔ k ∈ b.keys) :
    sameKeys a b = true := by
  simp only [sameKeys, Bool.and_eq_true, List.all_eq_true, decide_eq_true_iff]
  exact ⟨fun k hk => (h k).mp hk, fun k hk => (h k).mpr hk⟩

/-- All selections, including those of the axes without slice. -/
def allSels (spec vals : Dict Str (Cell α)) (shape : List ℕ) (vd : Dict Str (Option ℕ)) : List Sel :=
  spec.keys.foldl (assign (selOf spec vals vd)) (List.replicate (valsNdim vd + 1) .full) ++
    List.replicate (shape.length - (valsNdim vd + 1)) .full

theorem ndim_lt (h : Spec.Aligned spec vals shape vd sd n) : valsNdim vd < shape.length := by
  apply valsNdim_lt
  · obtain ⟨⟨k, c⟩, l, hl⟩ := List.exists_cons_of_ne_nil h.nonempty
    obtain ⟨_, xs, a, e1, e2, e3, e4⟩ := h.each k (by rw [hl]; simp)
    have := (List.getElem?_eq_some_iff.mp e3).1
    omega
  · intro k a hka
    have hget := Dict.get?_of_mem h.nodupV hka
    obtain ⟨_, xs, a', e1, e2, e3, e4⟩ := h.each k ((h.keysV k).mpr (Dict.get?_isSome.mp (by rw [hget]; rfl)))
    rw [hget] at e2
    cases e2
    exact (List.getElem?_eq_some_iff.mp e3).1

theorem length_allSels (h : Spec.Aligned spec vals shape vd sd n) :
    (allSels spec vals shape vd).length = shape.length := by
  have := ndim_lt h
  simp only [allSels, List.length_append, length_assign, List.length_replicate]
  omega

theorem axis_lt (h : Spec.Aligned spec vals shape vd sd n) {k : Str} {a : ℕ}
    (hk : Dict.get? vd k = some (some a)) : a < valsNdim vd + 1 :=
  Nat.lt_succ_of_le (valsNdim_ge (Dict.get?_mem hk))

/-- The selection for a variable specified by a number. -/
theorem sels_scalar (h : Spec.Aligned spec vals shape vd sd n) {k : Str} {a : ℕ} {x : α} {m : ℕ} {xs : List α}
    (hv : Dict.get? vd k = some (some a)) (hs : Dict.get? spec k = some (.scalar x))
    (hx : Dict.get? vals k = some (.array m xs)) :
    ∃ p, (allSels spec vals shape vd)[a]? = some (.at p) ∧ xs[p]? = some x := by
  have hk : k ∈ spec.keys := Dict.get?_isSome.mp (by rw [hs]; rfl)
  obtain ⟨_, xs', a', e1, e2, e3, e4⟩ := h.each k hk
  rw [hx] at e1; cases e1
  rcases e4 with ⟨x', f1, f2, f3⟩ | ⟨b, f1, f2, f3⟩
  · rw [hs] at f1; cases f1
    obtain ⟨p, hp, hpx⟩ := hits_one f3
    refine ⟨p, ?_, hpx⟩
    have ha := axis_lt h hv
    rw [allSels, List.getElem?_append_left (by simpa [length_assign] using ha)]
    apply assign_hit _ _ _ _ _ k hk
    · simp [selOf, hs, hx, hv, Cell.flat, hp]
    · simpa using ha
    · intro k' _ v' hv'
      have hkk : k' = k := by
        simp only [selOf] at hv'
        split at hv'
        · rename_i g1 g2 g3
          simp only [Option.map_eq_some_iff, Prod.mk.injEq] at hv'
          obtain ⟨_, _, rfl, _⟩ := hv'
          exact dims_inj h.nodupV h.incV g3 hv
        · cases hv'
      subst hkk
      simp [selOf, hs, hx, hv, Cell.flat, hp] at hv'
      exact hv'.symm
  · rw [hs] at f1; cases f1

/-- Other axes are kept. -/
theorem sels_full (h : Spec.Aligned spec vals shape vd sd n) {a : ℕ} (ha : a < shape.length)
    (hno : ∀ k x, Dict.get? vd k = some (some a) → Dict.get? spec k ≠ some (.scalar x)) :
    (allSels spec vals shape vd)[a]? = some .full := by
  rw [allSels]
  by_cases hlt : a < valsNdim vd + 1
  · rw [List.getElem?_append_left (by simpa [length_assign] using hlt), assign_miss]
    · simp [hlt]
    · intro k _ v hv
      simp only [selOf] at hv
      split at hv
      · rename_i x _ _ g1 g2 g3
        simp only [Option.map_eq_some_iff, Prod.mk.injEq] at hv
        obtain ⟨_, _, rfl, _⟩ := hv
        exact hno k x g3 g1
      · cases hv
  · rw [List.getElem?_append_right (by simpa [length_assign] using hlt)]
    simp only [length_assign, List.length_replicate]
    rw [List.getElem?_replicate, if_pos (by omega)]

/-- The shape of the result. -/
def outShape (spec : Dict Str (Cell α)) (sd : Dict Str (Option ℕ)) (n : ℕ) : List ℕ :=
  spec.keys.foldl (assign (sizeOf' spec sd)) (List.replicate n 1)

theorem out_array (h : Spec.Aligned spec vals shape vd sd n) {k : Str} {b m : ℕ} {xs : List α}
    (hs : Dict.get? sd k = some (some b)) (hx : Dict.get? spec k = some (.array m xs)) :
    (outShape spec sd n)[b]? = some xs.length := by
  have hk : k ∈ spec.keys := Dict.get?_isSome.mp (by rw [hx]; rfl)
  obtain ⟨_, xs', a', e1, e2, e3, e4⟩ := h.each k hk
  rcases e4 with ⟨x', f1, f2, f3⟩ | ⟨b', f1, f2, f3⟩
  · rw [hs] at f2; cases f2
  · rw [hs] at f2; cases f2
    apply assign_hit _ _ _ _ _ k hk
    · simp [sizeOf', hs, hx]
    · simpa using f3
    · intro k' _ v' hv'
      have hkk : k' = k := by
        simp only [sizeOf'] at hv'
        split at hv'
        · rename_i g1 g2
          simp only [Option.some.injEq, Prod.mk.injEq] at hv'
          obtain ⟨rfl, _⟩ := hv'
          exact dims_inj h.nodupS h.incS g2 hs
        · cases hv'
      subst hkk
      simp [sizeOf', hs, hx] at hv'
      exact hv'.symm

theorem out_one (h : Spec.Aligned spec vals shape vd sd n) {b : ℕ} (hb : b < n)
    (hno : ∀ k, Dict.get? sd k ≠ some (some b)) : (outShape spec sd n)[b]? = some 1 := by
  rw [outShape, assign_miss]
  · simp [hb]
  · intro k _ v hv
    simp only [sizeOf'] at hv
    split at hv
    · rename_i g1 g2
      simp only [Option.some.injEq, Prod.mk.injEq] at hv
      obtain ⟨rfl, _⟩ := hv
      exact hno k g2
    · cases hv

theorem length_out : (outShape spec sd n).length = n := by simp [outShape, length_assign]

/-- The axis of a variable. -/
def axisOf (dims : Dict Str (Option ℕ)) (k : Str) : ℕ := ((Dict.get? dims k).join).getD 0

/-- The variables with an axis. -/
def withAxis (dims : Dict Str (Option ℕ)) : List Str :=
  dims.keys.filter fun k => ((Dict.get? dims k).join).isSome

theorem mem_withAxis {dims : Dict Str (Option ℕ)} {k : Str} :
    k ∈ withAxis dims ↔ ∃ b, Dict.get? dims k = some (some b) := by
  rw [withAxis, List.mem_filter]
  constructor
  · rintro ⟨h1, h2⟩
    obtain ⟨d, hd⟩ := Option.isSome_iff_exists.mp (Dict.get?_isSome.mpr h1)
    rw [hd] at h2
    cases d with
    | none => simp at h2
    | some b => exact ⟨b, hd⟩
  · rintro ⟨b, hb⟩
    exact ⟨Dict.get?_isSome.mp (by rw [hb]; rfl), by rw [hb]; rfl⟩

theorem axisOf_eq {dims : Dict Str (Option ℕ)} {k : Str} {b : ℕ} (h : Dict.get? dims k = some (some b)) :
    axisOf dims k = b := by rw [axisOf, h]; rfl

theorem sorted_sd (h : Spec.Aligned spec vals shape vd sd n) :
    ((withAxis sd).map (axisOf sd)).Pairwise (· < ·) := by
  rw [List.pairwise_map]
  refine ((pairwise_keys h.nodupS h.incS).filter _).imp_of_mem ?_
  intro k l hk hl hkl
  obtain ⟨b, hb⟩ := mem_withAxis.mp hk
  obtain ⟨c, hc⟩ := mem_withAxis.mp hl
  rw [axisOf_eq hb, axisOf_eq hc]
  exact hkl b c hb hc

/-- What is known of a variable with an axis in the result. -/
theorem array_of (h : Spec.Aligned spec vals shape vd sd n) {k : Str} {b : ℕ}
    (hb : Dict.get? sd k = some (some b)) : ∃ m xs a, Dict.get? vals k = some (.array m xs) ∧
      Dict.get? vd k = some (some a) ∧ shape[a]? = some xs.length ∧ Dict.get? spec k = some (.array n xs) ∧ b < n := by
  obtain ⟨m, xs, a, e1, e2, e3, e4⟩ := h.each k ((h.keysS k).mpr (Dict.get?_isSome.mp (by rw [hb]; rfl)))
  rcases e4 with ⟨x, f1, f2, f3⟩ | ⟨b', f1, f2, f3⟩
  · rw [hb] at f2; cases f2
  · rw [hb] at f2; cases f2
    exact ⟨m, xs, a, e1, e2, e3, f1, f3⟩

theorem sorted_vd (h : Spec.Aligned spec vals shape vd sd n) (ho : Spec.SameOrder vd sd) :
    ((withAxis sd).map (axisOf vd)).Pairwise (· < ·) := by
  have := sorted_sd h
  rw [List.pairwise_map] at this ⊢
  refine this.imp_of_mem ?_
  intro k l hk hl hkl
  obtain ⟨b, hb⟩ := mem_withAxis.mp hk
  obtain ⟨c, hc⟩ := mem_withAxis.mp hl
  obtain ⟨_, _, a, _, ea, _⟩ := array_of h hb
  obtain ⟨_, _, a', _, ea', _⟩ := array_of h hc
  rw [axisOf_eq hb, axisOf_eq hc] at hkl
  rw [axisOf_eq ea, axisOf_eq ea']
  exact (ho k l a a' b c ea ea' hb hc).mpr hkl

/-- Sizes of the selection. -/
theorem subShape_axis (h : Spec.Aligned spec vals shape vd sd n) {k : Str} {b : ℕ}
    (hb : Dict.get? sd k = some (some b)) :
    (List.zipWith Sel.size (allSels spec vals shape vd) shape)[axisOf vd k]? = (outShape spec sd n)[b]? := by
  obtain ⟨m, xs, a, e1, e2, e3, e4, e5⟩ := array_of h hb
  rw [axisOf_eq e2, out_array h hb e4, List.getElem?_zipWith, e3,
    sels_full h (List.getElem?_eq_some_iff.mp e3).1]
  · rfl
  · intro k' x hk' hx
    have := dims_inj h.nodupV h.incV hk' e2
    subst this
    rw [e4] at hx; cases hx

theorem subShape_other (h : Spec.Aligned spec vals shape vd sd n) {a m : ℕ}
    (ha : (List.zipWith Sel.size (allSels spec vals shape vd) shape)[a]? = some m)
    (hno : a ∉ (withAxis sd).map (axisOf vd)) : m = 1 := by
  rw [List.getElem?_zipWith] at ha
  by_cases hsc : ∃ k x, Dict.get? vd k = some (some a) ∧ Dict.get? spec k = some (.scalar x)
  · obtain ⟨k, x, h1, h2⟩ := hsc
    obtain ⟨m', xs, a', e1, e2, e3, _⟩ := h.each k (Dict.get?_isSome.mp (by rw [h2]; rfl))
    rw [h1] at e2; cases e2
    obtain ⟨p, hp, _⟩ := sels_scalar h h1 h2 e1
    rw [hp, e3] at ha
    simpa [Sel.size] using ha.symm
  · have hlt : a < shape.length := by
      by_contra hc
      rw [List.getElem?_eq_none (l := shape) (by omega)] at ha
      revert ha
      cases (allSels spec vals shape vd)[a]? <;> simp
    rw [sels_full h hlt (fun k x h1 h2 => hsc ⟨k, x, h1, h2⟩), List.getElem?_eq_getElem hlt] at ha
    simp only [Sel.size, Option.some.injEq] at ha
    rcases h.others a m (by rw [List.getElem?_eq_getElem hlt, ha]) with h1 | ⟨k, hk⟩
    · exact h1
    · exfalso
      obtain ⟨m', xs, a', e1, e2, e3, e4⟩ := h.each k ((h.keysV k).mpr (Dict.get?_isSome.mp (by rw [hk]; rfl)))
      rcases e4 with ⟨x, f1, f2, f3⟩ | ⟨b', f1, f2, f3⟩
      · exact hsc ⟨k, x, hk, f1⟩
      · exact hno (List.mem_map.mpr ⟨k, mem_withAxis.mpr ⟨b', f2⟩, axisOf_eq hk⟩)

theorem out_other (h : Spec.Aligned spec vals shape vd sd n) {b m : ℕ} (hb : (outShape spec sd n)[b]? = some m)
    (hno : b ∉ (withAxis sd).map (axisOf sd)) : m = 1 := by
  have hlt : b < n := by
    have := (List.getElem?_eq_some_iff.mp hb).1
    rwa [length_out] at this
  rw [out_one h hlt] at hb
  · exact (Option.some.inj hb).symm
  · intro k hk
    exact hno (List.mem_map.mpr ⟨k, mem_withAxis.mpr ⟨b, hk⟩, axisOf_eq hk⟩)

theorem select_ok (h : Spec.Aligned spec vals shape vd sd n) (get : List ℕ → ℝ) :
    Arr.select (spec.keys.foldl (assign (selOf spec vals vd)) (List.replicate (valsNdim vd + 1) .full)) ⟨shape, get⟩ =
      .ok ⟨List.zipWith Sel.size (allSels spec vals shape vd) shape,
        fun j => get (List.zipWith Sel.place (allSels spec vals shape vd) j)⟩ := by
  have hlen : (spec.keys.foldl (assign (selOf spec vals vd)) (List.replicate (valsNdim vd + 1) Sel.full)).length
      = valsNdim vd + 1 := by simp [length_assign]
  have := ndim_lt h
  rw [Arr.select, hlen, if_neg (by simp only; omega)]
  show (if (List.zipWith Sel.within (allSels spec vals shape vd) shape).all id = true then _ else _) = _
  rw [if_pos]
  · rfl
  · rw [List.all_eq_true]
    intro b hb
    obtain ⟨a, ha⟩ := List.mem_iff_getElem?.mp hb
    rw [List.getElem?_zipWith] at ha
    by_cases hsc : ∃ k x, Dict.get? vd k = some (some a) ∧ Dict.get? spec k = some (.scalar x)
    · obtain ⟨k, x, h1, h2⟩ := hsc
      obtain ⟨m', xs, a', e1, e2, e3, _⟩ := h.each k (Dict.get?_isSome.mp (by rw [h2]; rfl))
      rw [h1] at e2; cases e2
      obtain ⟨p, hp, hpx⟩ := sels_scalar h h1 h2 e1
      rw [hp, e3] at ha
      have := (List.getElem?_eq_some_iff.mp hpx).1
      simpa [Sel.within, this] using ha.symm
    · have hlt : a < shape.length := by
        by_contra hc
        rw [List.getElem?_eq_none (l := shape) (by omega)] at ha
        revert ha
        cases (allSels spec vals shape vd)[a]? <;> simp
      rw [sels_full h hlt (fun k x h1 h2 => hsc ⟨k, x, h1, h2⟩), List.getElem?_eq_getElem hlt] at ha
      simpa [Sel.within] using ha.symm

/-- The position within the selection. -/
def Sel.squash : Sel → ℕ → ℕ
  | .at _, _ => 0
  | _, j => j

/-- The value of the call. -/
theorem slice_ok (junk : ℝ) {prob : Arr} (h : Spec.Aligned spec vals prob.shape vd sd n)
    (ho : Spec.SameOrder vd sd) :
    sliceByKeyvals junk spec vals prob (some vd) (some sd) =
      .ok ⟨outShape spec sd n, fun j => prob.get (List.zipWith Sel.place (allSels spec vals prob.shape vd)
        (unravelIx (List.zipWith Sel.size (allSels spec vals prob.shape vd) prob.shape)
          (ravelIx (outShape spec sd n) j)))⟩ := by
  have hp : (outShape spec sd n).prod = (List.zipWith Sel.size (allSels spec vals prob.shape vd) prob.shape).prod := by
    refine (slice_prod_eq _ _ (withAxis sd) (axisOf vd) (axisOf sd) (sorted_vd h ho) (sorted_sd h)
      (fun a m h1 h2 => subShape_other h h1 h2) (fun b m h1 h2 => out_other h h1 h2) ?_).symm
    intro k hk
    obtain ⟨b, hb⟩ := mem_withAxis.mp hk
    rw [subShape_axis h hb, axisOf_eq hb]
  have hloop := loop_ok h spec.keys (fun _ h => h)
    (List.replicate (valsNdim vd + 1) .full, List.replicate n 1)
    (by intro k a hk; simpa using axis_lt h hk) (by simp)
  have hsel := select_ok h prob.get
  rw [sliceByKeyvals, sameKeys_of h.keysVals]
  simp only [Bool.not_true, Bool.false_eq_true, if_false]
  rw [sameKeys_of h.keysS]
  simp only [Bool.not_true, Bool.false_eq_true, if_false]
  rw [sameKeys_of (fun k => (h.keysVals k).symm.trans (h.keysV k))]
  simp only [Bool.not_true, Bool.false_eq_true, if_false]
  rw [sliceDims, specNdim_ok h]
  show (if (!increasing (dimList vd)) = true then _ else _) = _
  rw [(increasing_iff (dimList vd)).mpr h.incV, (increasing_iff (dimList sd)).mpr h.incS, hloop]
  show (do reshape _ (← prob.select _)) = _
  rw [hsel]
  show reshape (outShape spec sd n) _ = _
  rw [reshape, if_pos hp]

end lemmas

/-! ### Theorems -/

/-- C64, for axes in the same order (missing: other orders, see `C64_claim`):
the result has the axes asked for, and every entry of it is the one entry of the
table with the specified values and the same positions along these axes. -/
theorem C64_slice_partial {α : Type} [DecidableEq α] (junk : ℝ) (spec vals : Dict Str (Cell α)) (prob : Arr)
    (vdims sdims : Dict Str (Option ℕ)) (n : ℕ) (h : Spec.Aligned spec vals prob.shape vdims sdims n)
    (ho : Spec.SameOrder vdims sdims) :
    ∃ r, sliceByKeyvals junk spec vals prob (some vdims) (some sdims) = .ok r ∧ r.shape.length = n ∧
      (∀ k b m xs, Dict.get? sdims k = some (some b) → Dict.get? spec k = some (.array m xs) →
        r.shape[b]? = some xs.length) ∧
      (∀ b < n, (∀ k, Dict.get? sdims k ≠ some (some b)) → r.shape[b]? = some 1) ∧
      ∀ j ∈ idx r.shape, (∃ i ∈ idx prob.shape, Spec.Picks spec vals vdims sdims i j) ∧
        ∀ i ∈ idx prob.shape, Spec.Picks spec vals vdims sdims i j → r.get j = prob.get i := by
  refine ⟨_, slice_ok junk h ho, length_out, fun k b m xs h1 h2 => out_array h h1 h2, fun b h1 h2 => out_one h h1 h2, ?_⟩
  intro j hj
  change j ∈ idx (outShape spec sdims n) at hj
  have hjn : j.length = n := by rw [length_of_mem_idx hj, length_out]
  constructor
  · have hax : ∀ a : ℕ, ∃ v : ℕ, ∀ m : ℕ, prob.shape[a]? = some m → v < m ∧
        ∀ k, Dict.get? vdims k = some (some a) → (∀ b : ℕ, Dict.get? sdims k = some (some b) → some v = j[b]?) ∧
          (∀ x m xs, Dict.get? spec k = some (.scalar x) → Dict.get? vals k = some (.array m xs) →
            xs[v]? = some x) := by
      intro a
      by_cases hk : ∃ k, Dict.get? vdims k = some (some a)
      · obtain ⟨k, hk⟩ := hk
        obtain ⟨m', xs, a', e1, e2, e3, e4⟩ := h.each k ((h.keysV k).mpr (Dict.get?_isSome.mp (by rw [hk]; rfl)))
        rw [hk] at e2; cases e2
        rcases e4 with ⟨x, f1, f2, f3⟩ | ⟨b, f1, f2, f3⟩
        · obtain ⟨p, _, hp⟩ := hits_one f3
          refine ⟨p, fun m hm => ⟨?_, ?_⟩⟩
          · rw [e3] at hm; cases hm
            exact (List.getElem?_eq_some_iff.mp hp).1
          · intro k' hk'
            have := dims_inj h.nodupV h.incV hk' hk
            subst this
            refine ⟨fun b hb => ?_, fun x' m xs' g1 g2 => ?_⟩
            · rw [f2] at hb; cases hb
            · rw [f1] at g1; cases g1
              rw [e1] at g2; cases g2
              exact hp
        · have hbj : b < j.length := by omega
          refine ⟨j[b], fun m hm => ⟨?_, ?_⟩⟩
          · rw [e3] at hm; cases hm
            exact (mem_idx_iff.mp hj).2 b _ _ (List.getElem?_eq_getElem hbj) (out_array h f2 f1)
          · intro k' hk'
            have := dims_inj h.nodupV h.incV hk' hk
            subst this
            refine ⟨fun b' hb => ?_, fun x' m xs' g1 g2 => ?_⟩
            · rw [f2] at hb; cases hb
              rw [List.getElem?_eq_getElem hbj]
            · rw [f1] at g1; cases g1
      · refine ⟨0, fun m hm => ⟨?_, fun k hk' => absurd ⟨k, hk'⟩ hk⟩⟩
        rcases h.others a m hm with rfl | hk'
        · exact Nat.one_pos
        · exact absurd hk' hk
    choose v hv using hax
    refine ⟨(List.range prob.shape.length).map v, ?_, ?_⟩
    · rw [mem_idx_iff]
      refine ⟨by simp, ?_⟩
      intro a x m hx hm
      have ha := (List.getElem?_eq_some_iff.mp hm).1
      rw [List.getElem?_map, List.getElem?_range ha] at hx
      cases hx
      exact (hv a m hm).1
    · intro k a hk
      obtain ⟨m', xs, a', e1, e2, e3, e4⟩ := h.each k ((h.keysV k).mpr (Dict.get?_isSome.mp (by rw [hk]; rfl)))
      rw [hk] at e2; cases e2
      have ha := (List.getElem?_eq_some_iff.mp e3).1
      have hget : ((List.range prob.shape.length).map v)[a]? = some (v a) := by
        rw [List.getElem?_map, List.getElem?_range ha]; rfl
      obtain ⟨g1, g2⟩ := (hv a _ e3).2 k hk
      rw [hget]
      exact ⟨g1, fun x m xs h1 h2 => ⟨v a, rfl, g2 x m xs h1 h2⟩⟩
  · intro i hi hpick
    have hil := length_of_mem_idx hi
    have hsl := length_allSels h
    -- the position in the selection
    have hplace : List.zipWith Sel.place (allSels spec vals prob.shape vdims)
        (List.zipWith Sel.squash (allSels spec vals prob.shape vdims) i) = i := by
      apply List.ext_getElem?
      intro a
      rw [List.getElem?_zipWith, List.getElem?_zipWith]
      by_cases ha : a < prob.shape.length
      · have hia : a < i.length := by omega
        rw [List.getElem?_eq_getElem hia]
        by_cases hsc : ∃ k x, Dict.get? vdims k = some (some a) ∧ Dict.get? spec k = some (.scalar x)
        · obtain ⟨k, x, h1, h2⟩ := hsc
          obtain ⟨m', xs, a', e1, e2, e3, e4⟩ := h.each k (Dict.get?_isSome.mp (by rw [h2]; rfl))
          rw [h1] at e2; cases e2
          obtain ⟨p, hp, hpx⟩ := sels_scalar h h1 h2 e1
          obtain ⟨q, hq, hqx⟩ := (hpick k a h1).2 x m' xs h2 e1
          rw [List.getElem?_eq_getElem hia] at hq
          rw [hp]
          simp only [Sel.place, Sel.squash]
          rw [hq]
          -- the value occurs once
          rcases e4 with ⟨x', f1, _, f3⟩ | ⟨b, f1, _, _⟩
          · rw [h2] at f1; cases f1
            obtain ⟨r, hr, _⟩ := hits_one f3
            have mem : ∀ t : ℕ, xs[t]? = some x → t = r := by
              intro t ht
              have : t ∈ hits xs x := by
                rw [hits, List.mem_filter]
                exact ⟨List.mem_range.mpr (List.getElem?_eq_some_iff.mp ht).1, by simpa using ht⟩
              rw [hr] at this
              simpa using this
            rw [mem p hpx, mem q hqx]
          · rw [h2] at f1; cases f1
        · rw [sels_full h ha (fun k x h1 h2 => hsc ⟨k, x, h1, h2⟩)]
          rfl
      · rw [List.getElem?_eq_none (by omega), List.getElem?_eq_none (l := i) (by omega)]
    have hmem : List.zipWith Sel.squash (allSels spec vals prob.shape vdims) i ∈
        idx (List.zipWith Sel.size (allSels spec vals prob.shape vdims) prob.shape) := by
      rw [mem_idx_iff]
      refine ⟨by simp [hsl, hil], ?_⟩
      intro a x m hx hm
      rw [List.getElem?_zipWith] at hx hm
      cases hs : (allSels spec vals prob.shape vdims)[a]? with
      | none => rw [hs] at hx; simp at hx
      | some s =>
        rw [hs] at hx hm
        cases hi' : i[a]? with
        | none => rw [hi'] at hx; simp at hx
        | some u =>
          cases hm' : prob.shape[a]? with
          | none => rw [hm'] at hm; simp at hm
          | some w =>
            rw [hi'] at hx
            rw [hm'] at hm
            have hlt := (mem_idx_iff.mp hi).2 a u w hi' hm'
            have hne : s ≠ .empty := by
              rintro rfl
              have ha := (List.getElem?_eq_some_iff.mp hm').1
              by_cases hsc : ∃ k x, Dict.get? vdims k = some (some a) ∧ Dict.get? spec k = some (.scalar x)
              · obtain ⟨k, x, h1, h2⟩ := hsc
                obtain ⟨m', xs, a', e1, e2, e3, e4⟩ := h.each k (Dict.get?_isSome.mp (by rw [h2]; rfl))
                rw [h1] at e2; cases e2
                obtain ⟨p, hp, _⟩ := sels_scalar h h1 h2 e1
                rw [hs] at hp; cases hp
              · rw [sels_full h ha (fun k x h1 h2 => hsc ⟨k, x, h1, h2⟩)] at hs
                cases hs
            cases s with
            | full => cases hx; cases hm; exact hlt
            | «at» p => cases hx; cases hm; exact Nat.one_pos
            | empty => exact absurd rfl hne
    have hrav : ravelIx (outShape spec sdims n) j =
        ravelIx (List.zipWith Sel.size (allSels spec vals prob.shape vdims) prob.shape)
          (List.zipWith Sel.squash (allSels spec vals prob.shape vdims) i) := by
      refine (slice_ravel_eq _ _ _ _ (withAxis sdims) (axisOf vdims) (axisOf sdims) (sorted_vd h ho) (sorted_sd h)
        (fun a m h1 h2 => subShape_other h h1 h2) (fun b m h1 h2 => out_other h h1 h2) ?_ ?_ hmem hj).symm
      · intro k hk
        obtain ⟨b, hb⟩ := mem_withAxis.mp hk
        rw [subShape_axis h hb, axisOf_eq hb]
      · intro k hk
        obtain ⟨b, hb⟩ := mem_withAxis.mp hk
        obtain ⟨m, xs, a, e1, e2, e3, e4, e5⟩ := array_of h hb
        rw [axisOf_eq e2, axisOf_eq hb, List.getElem?_zipWith,
          sels_full h (List.getElem?_eq_some_iff.mp e3).1, ← (hpick k a e2).1 b hb]
        · cases i[a]? <;> rfl
        · intro k' x hk' hx
          have := dims_inj h.nodupV h.incV hk' e2
          subst this
          rw [e4] at hx; cases hx
    show prob.get _ = _
    rw [hrav, unravel_ravel hmem, hplace]

/-- C64: the wanted entry is unique. -/
theorem C64_unique {α : Type} [DecidableEq α] (spec vals : Dict Str (Cell α)) (shape : List ℕ)
    (vdims sdims : Dict Str (Option ℕ)) (n : ℕ) (h : Spec.Aligned spec vals shape vdims sdims n)
    (i i' j : List ℕ) (hi : i ∈ idx shape) (hi' : i' ∈ idx shape)
    (h1 : Spec.Picks spec vals vdims sdims i j) (h2 : Spec.Picks spec vals vdims sdims i' j) : i = i' := by
  have l1 := length_of_mem_idx hi
  have l2 := length_of_mem_idx hi'
  apply List.ext_getElem?
  intro a
  by_cases ha : a < shape.length
  · rcases h.others a _ (List.getElem?_eq_getElem ha) with h0 | ⟨k, hk⟩
    · have a1 : a < i.length := by omega
      have a2 : a < i'.length := by omega
      have := (mem_idx_iff.mp hi).2 a _ _ (List.getElem?_eq_getElem a1) (List.getElem?_eq_getElem ha)
      have := (mem_idx_iff.mp hi').2 a _ _ (List.getElem?_eq_getElem a2) (List.getElem?_eq_getElem ha)
      rw [List.getElem?_eq_getElem a1, List.getElem?_eq_getElem a2]
      congr 1
      omega
    · obtain ⟨m', xs, a', e1, e2, e3, e4⟩ := h.each k ((h.keysV k).mpr (Dict.get?_isSome.mp (by rw [hk]; rfl)))
      rw [hk] at e2; cases e2
      rcases e4 with ⟨x, f1, f2, f3⟩ | ⟨b, f1, f2, f3⟩
      · obtain ⟨p, hp, hpx⟩ := (h1 k a hk).2 x m' xs f1 e1
        obtain ⟨q, hq, hqx⟩ := (h2 k a hk).2 x m' xs f1 e1
        obtain ⟨r, hr, _⟩ := hits_one f3
        have mem : ∀ t : ℕ, xs[t]? = some x → t = r := by
          intro t ht
          have : t ∈ hits xs x := by
            rw [hits, List.mem_filter]
            exact ⟨List.mem_range.mpr (List.getElem?_eq_some_iff.mp ht).1, by simpa using ht⟩
          rw [hr] at this
          simpa using this
        rw [hp, hq, mem p hpx, mem q hqx]
      · rw [(h1 k a hk).1 b f2, (h2 k a hk).1 b f2]
  · rw [List.getElem?_eq_none (by omega), List.getElem?_eq_none (by omega)]

/-- C64 full claim: also when the result has its axes in another order than the
table. -/
def C64_claim : Prop :=
  ∀ (junk : ℝ) (spec vals : Dict Str (Cell ℕ)) (prob : Arr) (vdims sdims : Dict Str (Option ℕ)) (n : ℕ),
    Spec.Aligned spec vals prob.shape vdims sdims n →
    ∀ r, sliceByKeyvals junk spec vals prob (some vdims) (some sdims) = .ok r →
      ∀ j ∈ idx r.shape, ∀ i ∈ idx prob.shape, Spec.Picks spec vals vdims sdims i j → r.get j = prob.get i

/-- Two variables of two values each, along two axes. -/
def gridVals : Dict Str (Cell ℕ) := [(['x'], .array 2 [0, 1]), (['y'], .array 2 [0, 1])]
/-- The axes of the table: `x` first. -/
def gridDims : Dict Str (Option ℕ) := [(['x'], some 0), (['y'], some 1)]
/-- The axes asked for: `y` first. -/
def gridSwap : Dict Str (Option ℕ) := [(['y'], some 0), (['x'], some 1)]

theorem grid_swapped : Spec.Aligned gridVals gridVals [2, 2] gridDims gridSwap 2 where
  nonempty := by simp [gridVals]
  nodupV := by simp [gridDims, Dict.keys]
  nodupS := by simp [gridSwap, Dict.keys]
  keysVals := fun _ => Iff.rfl
  keysV := by simp [gridVals, gridDims, Dict.keys]
  keysS := by
    intro k
    simp only [gridVals, gridSwap, Dict.keys, List.map_cons, List.map_nil, List.mem_cons, List.not_mem_nil, or_false]
    exact or_comm
  each := by
    intro k hk
    simp only [gridVals, Dict.keys, List.map_cons, List.map_nil, List.mem_cons, List.not_mem_nil, or_false] at hk
    rcases hk with rfl | rfl
    · exact ⟨2, [0, 1], 0, rfl, rfl, rfl, Or.inr ⟨1, rfl, rfl, by omega⟩⟩
    · exact ⟨2, [0, 1], 1, rfl, rfl, rfl, Or.inr ⟨0, rfl, rfl, by omega⟩⟩
  others := by
    intro a m ha
    rcases a with _ | _ | a
    · exact Or.inr ⟨['x'], rfl⟩
    · exact Or.inr ⟨['y'], rfl⟩
    · simp at ha
  incV := by simp [gridDims]
  incS := by simp [gridSwap]
  axes := Or.inr ⟨['x'], 2, [0, 1], rfl⟩

/-- The full claim fails: the order of the axes asked for is not compared with
that of the table, and the entries are only reshaped.  With `y` before `x`, the
entry for `y = 0` and `x = 1` is that of `x = 0` and `y = 1`. -/
theorem C64_claim_fails : ¬ C64_claim := by
  intro h
  have hs : sliceByKeyvals (0 : ℝ) gridVals gridVals ⟨[2, 2], fun i => if i = [0, 1] then 1 else 0⟩
      (some gridDims) (some gridSwap) = .ok ⟨[2, 2], fun j => (fun i : List ℕ => if i = [0, 1] then (1 : ℝ) else 0)
        (List.zipWith Sel.place [.full, .full] (unravelIx [2, 2] (ravelIx [2, 2] j)))⟩ := rfl
  have := h 0 gridVals gridVals ⟨[2, 2], fun i => if i = [0, 1] then 1 else 0⟩ gridDims gridSwap 2 grid_swapped _ hs
    [0, 1] (by simp [mem_idx]) [1, 0] (by simp [mem_idx]) (by
      intro k a hk
      have hk' := Dict.get?_mem hk
      simp only [gridDims, List.mem_cons, Prod.mk.injEq, Option.some.injEq, List.not_mem_nil, or_false] at hk'
      rcases hk' with ⟨rfl, rfl⟩ | ⟨rfl, rfl⟩
      · refine ⟨fun b hb => ?_, fun x m xs hx _ => ?_⟩
        · have : (1 : ℕ) = b := by
            have : Dict.get? gridSwap ['x'] = some (some 1) := rfl
            rw [this] at hb
            simpa using hb
          subst this
          rfl
        · have : Dict.get? gridVals ['x'] = some (.array 2 [0, 1]) := rfl
          rw [this] at hx; cases hx
      · refine ⟨fun b hb => ?_, fun x m xs hx _ => ?_⟩
        · have : (0 : ℕ) = b := by
            have : Dict.get? gridSwap ['y'] = some (some 0) := rfl
            rw [this] at hb
            simpa using hb
          subst this
          rfl
        · have : Dict.get? gridVals ['y'] = some (.array 2 [0, 1]) := rfl
          rw [this] at hx; cases hx)
  simp [ravelIx, unravelIx, Sel.place] at this

/-- C64: both dictionaries of dimensions are needed. -/
theorem C64_dims_needed {α : Type} [DecidableEq α] (junk : ℝ) (spec vals : Dict Str (Cell α)) (prob : Arr)
    (vdims sdims : Option (Dict Str (Option ℕ))) (h : vdims = none ∨ sdims = none) :
    Raises (sliceByKeyvals junk spec vals prob vdims sdims) := by
  unfold sliceByKeyvals
  split
  · exact ⟨_, rfl⟩
  · rcases h with rfl | rfl
    · cases sdims with
      | none => exact ⟨_, rfl⟩
      | some sd =>
        simp only
        split <;> exact ⟨_, rfl⟩
    · exact ⟨_, rfl⟩

theorem sameKeys_true {V W : Type} {a : Dict Str V} {b : Dict Str W} (h : sameKeys a b = true) (k : Str) :
    k ∈ a.keys ↔ k ∈ b.keys := by
  simp only [sameKeys, Bool.and_eq_true, List.all_eq_true, decide_eq_true_iff] at h
  exact ⟨h.1 k, h.2 k⟩

/-- A successful call got to the loop. -/
theorem slice_inv {α : Type} [DecidableEq α] {junk : ℝ} {spec vals : Dict Str (Cell α)} {prob : Arr}
    {vdims sdims : Option (Dict Str (Option ℕ))} {r : Arr}
    (h : sliceByKeyvals junk spec vals prob vdims sdims = .ok r) :
    ∃ vd sd, vdims = some vd ∧ sdims = some sd ∧ (∀ k, k ∈ spec.keys ↔ k ∈ vals.keys) ∧
      (∀ k, k ∈ spec.keys ↔ k ∈ sd.keys) ∧ (∀ k, k ∈ vals.keys ↔ k ∈ vd.keys) ∧
      (vd.filterMap Prod.snd).Pairwise (· < ·) ∧ (sd.filterMap Prod.snd).Pairwise (· < ·) ∧
      ∃ m, specNdim spec sd = .ok m ∧ ∃ o, sliceLoop spec vals sd vd spec.keys
        (List.replicate (valsNdim vd + 1) .full, List.replicate m 1) = .ok o ∧
        ∀ st, o = some st → ∃ sub, prob.select st.1 = .ok sub ∧ reshape st.2 sub = .ok r := by
  unfold sliceByKeyvals at h
  split at h
  · cases h
  rename_i k1
  split at h
  · cases h
  rename_i sd
  split at h
  · cases h
  rename_i k2
  split at h
  · cases h
  rename_i vd
  split at h
  · cases h
  rename_i k3
  simp only [Bool.not_eq_true', Bool.not_eq_false] at k1 k2 k3
  refine ⟨vd, sd, rfl, rfl, sameKeys_true k1, sameKeys_true k2, sameKeys_true k3, ?_⟩
  rw [sliceDims] at h
  cases hm : specNdim spec sd with
  | error e => rw [hm] at h; cases h
  | ok m =>
    rw [hm] at h
    change (if (!increasing (dimList vd)) = true then _ else _) = _ at h
    split at h
    · cases h
    rename_i i1
    split at h
    · cases h
    rename_i i2
    simp only [Bool.not_eq_true', Bool.not_eq_false] at i1 i2
    refine ⟨(increasing_iff _).mp i1, (increasing_iff _).mp i2, m, rfl, ?_⟩
    cases ho : sliceLoop spec vals sd vd spec.keys (List.replicate (valsNdim vd + 1) .full, List.replicate m 1) with
    | error e => rw [ho] at h; cases h
    | ok o =>
      rw [ho] at h
      refine ⟨o, rfl, ?_⟩
      rintro ⟨sl, sh⟩ rfl
      change (do reshape sh (← prob.select sl)) = _ at h
      cases hsub : prob.select sl with
      | error e => rw [hsub] at h; cases h
      | ok sub => rw [hsub] at h; exact ⟨sub, rfl, h⟩

/-- C64: the specification and both dictionaries of dimensions must name the
variables of the table. -/
theorem C64_keys_raises {α : Type} [DecidableEq α] (junk : ℝ) (spec vals : Dict Str (Cell α)) (prob : Arr)
    (vdims sdims : Dict Str (Option ℕ)) (k : Str)
    (h : ¬ ((k ∈ spec.keys ↔ k ∈ vals.keys) ∧ (k ∈ spec.keys ↔ k ∈ sdims.keys) ∧
      (k ∈ vals.keys ↔ k ∈ vdims.keys))) :
    Raises (sliceByKeyvals junk spec vals prob (some vdims) (some sdims)) := by
  cases hr : sliceByKeyvals junk spec vals prob (some vdims) (some sdims) with
  | error e => exact ⟨e, rfl⟩
  | ok r =>
    obtain ⟨vd, sd, h1, h2, h3, h4, h5, _⟩ := slice_inv hr
    cases h1; cases h2
    exact absurd ⟨h3 k, h4 k, h5 k⟩ h

/-- C64: axes out of order are refused, in the table and in the result. -/
theorem C64_order_raises {α : Type} [DecidableEq α] (junk : ℝ) (spec vals : Dict Str (Cell α)) (prob : Arr)
    (vdims sdims : Dict Str (Option ℕ))
    (h : ¬ ((vdims.filterMap Prod.snd).Pairwise (· < ·) ∧ (sdims.filterMap Prod.snd).Pairwise (· < ·))) :
    Raises (sliceByKeyvals junk spec vals prob (some vdims) (some sdims)) := by
  cases hr : sliceByKeyvals junk spec vals prob (some vdims) (some sdims) with
  | error e => exact ⟨e, rfl⟩
  | ok r =>
    obtain ⟨vd, sd, h1, h2, h3, h4, h5, h6, h7, _⟩ := slice_inv hr
    cases h1; cases h2
    exact absurd ⟨h6, h7⟩ h

/-- One round of the loop that always raises. -/
theorem loop_raises {α : Type} [DecidableEq α] {spec vals : Dict Str (Cell α)} {sd vd : Dict Str (Option ℕ)}
    {k : Str} {s v : Cell α} {sdim vdim : Option ℕ} (e1 : Dict.get? spec k = some s) (e2 : Dict.get? vals k = some v)
    (e3 : Dict.get? sd k = some sdim) (e4 : Dict.get? vd k = some vdim)
    (hall : ∀ k s v d, Dict.get? spec k = some s → Dict.get? vals k = some v → Dict.get? vd k = some d →
      Raises (sliceScalar s v d) ∨ sliceScalar s v d = .ok true)
    (hr : ∀ st, Raises (sliceKey s v sdim vdim st)) (ks : List Str) (hk : k ∈ ks) (st : List Sel × List ℕ) :
    Raises (sliceLoop spec vals sd vd ks st) := by
  induction ks generalizing st with
  | nil => simp at hk
  | cons k' ks ih =>
    rw [sliceLoop]
    split
    · rename_i s' v' sd' vd' g1 g2 g3 g4
      rcases hall k' s' v' vd' g1 g2 g4 with ⟨e, he⟩ | ht
      · rw [he]; exact ⟨e, rfl⟩
      · rw [ht]
        show Raises (do let st ← sliceKey s' v' sd' vd' st; sliceLoop spec vals sd vd ks st)
        by_cases hkk : k' = k
        · subst hkk
          rw [e1] at g1; rw [e2] at g2; rw [e3] at g3; rw [e4] at g4
          cases g1; cases g2; cases g3; cases g4
          obtain ⟨e, he⟩ := hr st
          rw [he]; exact ⟨e, rfl⟩
        · have hk' : k ∈ ks := by
            rcases List.mem_cons.mp hk with h | h
            · exact absurd h.symm hkk
            · exact h
          cases hst : sliceKey s' v' sd' vd' st with
          | error e => exact ⟨e, rfl⟩
          | ok st' => exact ih hk' st'
    · exact ⟨_, rfl⟩

theorem slice_raises_of {α : Type} [DecidableEq α] (junk : ℝ) {spec vals : Dict Str (Cell α)} (prob : Arr)
    {sd vd : Dict Str (Option ℕ)}
    (h : ∀ st, Raises (sliceLoop spec vals sd vd spec.keys st)) :
    Raises (sliceByKeyvals junk spec vals prob (some vd) (some sd)) := by
  cases hr : sliceByKeyvals junk spec vals prob (some vd) (some sd) with
  | error e => exact ⟨e, rfl⟩
  | ok r =>
    obtain ⟨vd', sd', h1, h2, h3, h4, h5, h6, h7, m, _, o, ho, _⟩ := slice_inv hr
    cases h1; cases h2
    obtain ⟨e, he⟩ := h (List.replicate (valsNdim vd + 1) .full, List.replicate m 1)
    rw [he] at ho; cases ho

/-- C64: a number that occurs more than once among the values of its variable is
refused (for tables in which all variables have an axis). -/
theorem C64_repeated_raises {α : Type} [DecidableEq α] (junk : ℝ) (spec vals : Dict Str (Cell α)) (prob : Arr)
    (vdims sdims : Dict Str (Option ℕ)) (hall : ∀ k, Dict.get? vdims k ≠ some none)
    (k : Str) (x : α) (m : ℕ) (xs : List α) (a : ℕ) (h1 : Dict.get? spec k = some (.scalar x))
    (h2 : Dict.get? vals k = some (.array m xs)) (h3 : Dict.get? sdims k = some none)
    (h4 : Dict.get? vdims k = some (some a)) (h : 2 ≤ xs.count x) :
    Raises (sliceByKeyvals junk spec vals prob (some vdims) (some sdims)) := by
  apply slice_raises_of
  intro st
  refine loop_raises h1 h2 h3 h4 ?_ ?_ _ (Dict.get?_isSome.mp (by rw [h1]; rfl)) st
  · intro k' s v d _ _ hd
    cases d with
    | none => exact absurd hd (hall k')
    | some d => exact Or.inr rfl
  · intro st
    have hlen : 2 ≤ (hits xs x).length := by rw [length_hits]; exact h
    rw [sliceKey]
    simp only [Cell.flat]
    match hh : hits xs x, hlen with
    | p :: q :: l, _ => exact ⟨_, rfl⟩

/-- C64: several values along an axis must be exactly those of the table (for
tables in which all variables have an axis). -/
theorem C64_mismatch_raises {α : Type} [DecidableEq α] (junk : ℝ) (spec vals : Dict Str (Cell α)) (prob : Arr)
    (vdims sdims : Dict Str (Option ℕ)) (hall : ∀ k, Dict.get? vdims k ≠ some none)
    (k : Str) (m m' : ℕ) (xs ys : List α) (a b : ℕ) (h1 : Dict.get? spec k = some (.array m' ys))
    (h2 : Dict.get? vals k = some (.array m xs)) (h3 : Dict.get? sdims k = some (some b))
    (h4 : Dict.get? vdims k = some (some a)) (hlx : xs.length ≠ 1) (hly : ys.length ≠ 1) (h : xs ≠ ys) :
    Raises (sliceByKeyvals junk spec vals prob (some vdims) (some sdims)) := by
  apply slice_raises_of
  intro st
  refine loop_raises h1 h2 h3 h4 ?_ ?_ _ (Dict.get?_isSome.mp (by rw [h1]; rfl)) st
  · intro k' s v d _ _ hd
    cases d with
    | none => exact absurd hd (hall k')
    | some d => exact Or.inr rfl
  · intro st
    have : eqAll xs ys = false := by
      match xs, ys, hlx, hly, h with
      | [], [], _, _, h => exact absurd rfl h
      | [], _ :: _ :: _, _, _, _ => simp [eqAll]
      | _ :: _ :: _, [], _, _, _ => simp [eqAll]
      | _ :: _ :: _, _ :: _ :: _, _, _, h => simp only [eqAll, decide_eq_false_iff_not]; exact h
    simp only [sliceKey, Cell.flat, this]
    exact ⟨_, rfl⟩

/-- C64: several values along an axis are refused for a variable of which the
table has a single value only. -/
theorem C64_single_raises {α : Type} [DecidableEq α] (junk : ℝ) (spec vals : Dict Str (Cell α)) (prob : Arr)
    (vdims sdims : Dict Str (Option ℕ)) (hall : ∀ k, Dict.get? vdims k ≠ some none)
    (k : Str) (y : α) (c : Cell α) (a b : ℕ) (h1 : Dict.get? spec k = some c)
    (h2 : Dict.get? vals k = some (.scalar y)) (h3 : Dict.get? sdims k = some (some b))
    (h4 : Dict.get? vdims k = some (some a)) :
    Raises (sliceByKeyvals junk spec vals prob (some vdims) (some sdims)) := by
  apply slice_raises_of
  intro st
  refine loop_raises h1 h2 h3 h4 ?_ ?_ _ (Dict.get?_isSome.mp (by rw [h1]; rfl)) st
  · intro k' s v d _ _ hd
    cases d with
    | none => exact absurd hd (hall k')
    | some d => exact Or.inr rfl
  · intro st
    rw [sliceKey]
    split
    · exact ⟨_, rfl⟩
    · exact ⟨_, rfl⟩

/-- C64: no entry is returned for a number that is not among the values of its
variable (for tables in which all variables have an axis). -/
theorem C64_absent {α : Type} [DecidableEq α] (junk : ℝ) (spec vals : Dict Str (Cell α)) (prob r : Arr)
    (vdims sdims : Dict Str (Option ℕ)) (hn : vdims.keys.Nodup) (hall : ∀ k, Dict.get? vdims k ≠ some none)
    (k : Str) (x : α) (m : ℕ) (xs : List α) (a : ℕ) (h1 : Dict.get? spec k = some (.scalar x))
    (h2 : Dict.get? vals k = some (.array m xs)) (h3 : Dict.get? sdims k = some none)
    (h4 : Dict.get? vdims k = some (some a)) (h : x ∉ xs)
    (hr : sliceByKeyvals junk spec vals prob (some vdims) (some sdims) = .ok r) : idx r.shape = ∅ := by
  obtain ⟨vd, sd, g1, g2, g3, g4, g5, g6, g7, mm, _, o, ho, hfin⟩ := slice_inv hr
  cases g1; cases g2
  -- the loop leaves the axis empty
  have step : ∀ k' s v sdim vdim (st st' : List Sel × List ℕ), Dict.get? spec k' = some s → Dict.get? vals k' = some v →
      Dict.get? sdims k' = some sdim → Dict.get? vdims k' = some vdim → sliceKey s v sdim vdim st = .ok st' →
      (k' = k ∨ st.1[a]? = some .empty) → st'.1[a]? = some .empty := by
    intro k' s v sdim vdim st st' e1 e2 e3 e4 hst hor
    by_cases hkk : k' = k
    · subst hkk
      rw [h1] at e1; rw [h2] at e2; rw [h3] at e3; rw [h4] at e4
      cases e1; cases e2; cases e3; cases e4
      simp only [sliceKey, Cell.flat, hits_none h, setSel] at hst
      split at hst
      · rename_i hlt
        cases hst
        simp [hlt]
      · cases hst
    · have hemp : st.1[a]? = some .empty := by
        rcases hor with h | h
        · exact absurd h hkk
        · exact h
      cases sdim with
      | some d =>
        simp only [sliceKey] at hst
        split at hst
        · split at hst
          · cases hst
          · split at hst
            · cases hst; exact hemp
            · cases hst
        · cases hst
      | none =>
        have keep : ∀ sel l', setSel st.1 vdim sel = .ok l' → l'[a]? = some .empty := by
          intro sel l' hl'
          cases vdim with
          | none => cases hl'
          | some d =>
            simp only [setSel] at hl'
            split at hl'
            · cases hl'
              have : d ≠ a := by
                rintro rfl
                exact hkk (dims_inj hn g6 e4 h4)
              rw [List.getElem?_set_ne this]; exact hemp
            · cases hl'
        simp only [sliceKey] at hst
        split at hst
        · cases hst
        · split at hst
          · cases hl : setSel st.1 vdim .empty with
            | error e => rw [hl] at hst; cases hst
            | ok l' => rw [hl] at hst; cases hst; exact keep _ _ hl
          · rename_i p _
            cases hl : setSel st.1 vdim (.at p) with
            | error e => rw [hl] at hst; cases hst
            | ok l' => rw [hl] at hst; cases hst; exact keep _ _ hl
          · cases hst
  have loop : ∀ (ks : List Str) (st : List Sel × List ℕ) (o : Option (List Sel × List ℕ)),
      sliceLoop spec vals sdims vdims ks st = .ok o → (k ∈ ks ∨ st.1[a]? = some .empty) →
      ∃ st', o = some st' ∧ st'.1[a]? = some .empty := by
    intro ks
    induction ks with
    | nil =>
      intro st o hl hor
      cases hl
      rcases hor with h | h
      · simp at h
      · exact ⟨st, rfl, h⟩
    | cons k' ks ih =>
      intro st o hl hor
      rw [sliceLoop] at hl
      split at hl
      · rename_i s v sdim vdim e1 e2 e3 e4
        cases vdim with
        | none => exact absurd e4 (hall k')
        | some d =>
          change (do let st ← sliceKey s v sdim (some d) st; sliceLoop spec vals sdims vdims ks st) = _ at hl
          cases hst : sliceKey s v sdim (some d) st with
          | error e => rw [hst] at hl; cases hl
          | ok st' =>
            rw [hst] at hl
            refine ih st' o hl ?_
            by_cases hks : k ∈ ks
            · exact Or.inl hks
            · refine Or.inr (step k' s v sdim (some d) st st' e1 e2 e3 e4 hst ?_)
              rcases hor with h | h
              · rcases List.mem_cons.mp h with h | h
                · exact Or.inl h.symm
                · exact absurd h hks
              · exact Or.inr h
      · cases hl
  obtain ⟨st', rfl, hemp⟩ := loop _ _ _ ho (Or.inl (Dict.get?_isSome.mp (by rw [h1]; rfl)))
  obtain ⟨sub, hsub, hre⟩ := hfin st' rfl
  -- so the selection has no elements
  have hz : sub.shape.prod = 0 := by
    rw [Arr.select] at hsub
    split at hsub
    · cases hsub
    rename_i hlen
    simp only at hsub
    split at hsub
    · cases hsub
      apply List.prod_eq_zero
      have ha := (List.getElem?_eq_some_iff.mp hemp).1
      have hap : a < prob.shape.length := by omega
      apply List.mem_of_getElem? (i := a)
      rw [List.getElem?_zipWith, List.getElem?_append_left ha, hemp, List.getElem?_eq_getElem hap]
      rfl
    · cases hsub
  rw [reshape] at hre
  split at hre
  · rename_i heq
    cases hre
    rw [hz] at heq
    simp only
    rw [idx, List.toFinset_eq_empty_iff, ← List.length_eq_zero_iff, length_indices]
    exact heq
  · cases hre

/-- C64 claim about variables with one value and no axis in the table: given by
this value, they do not matter. -/
def C64_fixed_claim : Prop :=
  ∀ (junk : ℝ) (prob : Arr) (k : Str) (x : ℕ), prob.shape = [] →
    ∃ r, sliceByKeyvals junk [(k, .scalar x)] [(k, .scalar x)] prob (some [(k, none)]) (some [(k, none)]) = .ok r ∧
      r.get [] = prob.get []

/-- It fails: such a specification always raises, ... -/
theorem C64_fixed_raises {α : Type} [DecidableEq α] (junk : ℝ) (spec vals : Dict Str (Cell α)) (prob : Arr)
    (vdims sdims : Dict Str (Option ℕ))
    (hall : ∀ k, Dict.get? vdims k = some none → ∃ y, Dict.get? vals k = some (.scalar y) ∧ Dict.get? spec k = some (.scalar y))
    (k : Str) (h1 : Dict.get? vdims k = some none) (h2 : Dict.get? sdims k = some none) :
    Raises (sliceByKeyvals junk spec vals prob (some vdims) (some sdims)) := by
  obtain ⟨y, e1, e2⟩ := hall k h1
  apply slice_raises_of
  intro st
  refine loop_raises e2 e1 h2 h1 ?_ ?_ _ (Dict.get?_isSome.mp (by rw [e2]; rfl)) st
  · intro k' s v d g1 g2 hd
    cases d with
    | some d => exact Or.inr rfl
    | none =>
      obtain ⟨y', f1, f2⟩ := hall k' hd
      rw [f1] at g2; rw [f2] at g1
      cases g1; cases g2
      right
      simp [sliceScalar, Cell.isscalar, Cell.flat]
  · intro st
    have : hits [y] y = [0] := by simp [hits]
    simp only [sliceKey, Cell.flat, this, setSel]
    exact ⟨_, rfl⟩

/-- ... so the claim is refuted by any single number. -/
theorem C64_fixed_claim_fails : ¬ C64_fixed_claim := by
  intro h
  obtain ⟨r, hr, _⟩ := h 0 ⟨[], fun _ => 1⟩ ['x'] 3 rfl
  obtain ⟨e, he⟩ := C64_fixed_raises 0 [(['x'], .scalar 3)] [(['x'], .scalar 3)] ⟨[], fun _ => 1⟩
    [(['x'], none)] [(['x'], none)] (by
      intro k hk
      have := Dict.get?_mem hk
      simp only [List.mem_singleton, Prod.mk.injEq, and_true] at this
      subst this
      exact ⟨3, rfl, rfl⟩) ['x'] rfl rfl
  rw [he] at hr; cases hr

/-- C64 claim about numbers that are not in the table, for all tables: no entry
is returned. -/
def C64_absent_claim : Prop :=
  ∀ (junk : ℝ) (spec vals : Dict Str (Cell ℕ)) (prob r : Arr) (vdims sdims : Dict Str (Option ℕ)) (k : Str) (x : ℕ)
    (c : Cell ℕ), Dict.get? spec k = some (.scalar x) → Dict.get? vals k = some c → x ∉ c.flat →
    sliceByKeyvals junk spec vals prob (some vdims) (some sdims) = .ok r → idx r.shape = ∅

/-- C64: a single variable with one value and no axis in the table, specified by
another number, gives an array with one entry: whatever is in memory. -/
theorem C64_fixed_differs {α : Type} [DecidableEq α] (junk : ℝ) (prob : Arr) (k : Str) (x y : α) (h : x ≠ y) :
    sliceByKeyvals junk [(k, .scalar x)] [(k, .scalar y)] prob (some [(k, none)]) (some [(k, none)]) =
      .ok ⟨[], fun _ => junk⟩ := by
  simp [sliceByKeyvals, sameKeys, sliceDims, specNdim, specNdimStep, Dict.get?, Dict.keys, dimList, increasing,
    sliceLoop, sliceScalar, Cell.isscalar, Cell.flat, h, bind, Except.bind, pure, Except.pure]

/-- The claim fails: the one entry returned is not initialised. -/
theorem C64_absent_claim_fails : ¬ C64_absent_claim := by
  intro h
  have := h 5 [(['x'], .scalar 4)] [(['x'], .scalar 3)] ⟨[], fun _ => 1⟩ _ [(['x'], none)] [(['x'], none)] ['x'] 4
    (.scalar 3) rfl rfl (by simp [Cell.flat]) (C64_fixed_differs 5 ⟨[], fun _ => 1⟩ ['x'] 4 3 (by omega))
  simp [idx, indices] at this

/-! ### The function returned by `bool_perm_freq` -/

namespace Spec

/-- A call for boolean columns: every column is given by a boolean, or by both
booleans along an axis of the result; these axes have the order of the columns. -/
structure Columns (labels : List Str) (spec : Dict Str (Cell Bool)) (sdims : Dict Str (Option ℕ)) (n : ℕ) : Prop where
  nodupS : sdims.keys.Nodup
  keys : ∀ k, k ∈ spec.keys ↔ k ∈ labels
  keysS : ∀ k, k ∈ sdims.keys ↔ k ∈ labels
  each : ∀ k ∈ labels, (∃ x, Dict.get? spec k = some (.scalar x) ∧ Dict.get? sdims k = some none) ∨
    (∃ b, Dict.get? spec k = some (.array n [false, true]) ∧ Dict.get? sdims k = some (some b) ∧ b < n)
  order : labels.Pairwise fun k l => ∀ b c : ℕ, Dict.get? sdims k = some (some b) →
    Dict.get? sdims l = some (some c) → b < c
  incS : (sdims.filterMap Prod.snd).Pairwise (· < ·)
  axes : n = 0 ∨ ∃ k m xs, Dict.get? spec k = some (.array m xs)

/-- Row `row` has the booleans asked for at entry `j` of the result. -/
def RowAt (labels : List Str) (spec : Dict Str (Cell Bool)) (sdims : Dict Str (Option ℕ)) (row : List Bool)
    (j : List ℕ) : Prop :=
  ∀ (p : ℕ) (k : Str), labels[p]? = some k →
    (∀ x, Dict.get? spec k = some (.scalar x) → row[p]? = some x) ∧
    (∀ b : ℕ, Dict.get? sdims k = some (some b) → ∃ y, row[p]? = some y ∧ j[b]? = some y.toNat)

end Spec

theorem permVals_eq {labels : List Str} (h : labels.Nodup) :
    permVals labels = labels.map fun l => (l, .array labels.length [false, true]) :=
  Dict.ofUpdates_of_nodup (by simpa [Function.comp_def] using h)

theorem permDims_eq {labels : List Str} (h : labels.Nodup) :
    permDims labels = labels.zipIdx.map fun ld => (ld.1, some ld.2) :=
  Dict.ofUpdates_of_nodup (by simpa [Function.comp_def] using h)

theorem get?_permDims {labels : List Str} (h : labels.Nodup) {k : Str} {a : Option ℕ} :
    Dict.get? (permDims labels) k = some a ↔ ∃ p : ℕ, labels[p]? = some k ∧ a = some p := by
  have hn : (permDims labels).keys.Nodup := by
    rw [permDims_eq h, Dict.keys]
    simpa [Function.comp_def] using h
  constructor
  · intro hk
    have := Dict.get?_mem hk
    rw [permDims_eq h] at this
    simp only [List.mem_map, Prod.mk.injEq, Prod.exists] at this
    obtain ⟨l, p, hm, rfl, rfl⟩ := this
    exact ⟨p, List.mem_zipIdx_iff_getElem?.mp hm, rfl⟩
  · rintro ⟨p, hp, rfl⟩
    apply Dict.get?_of_mem hn
    rw [permDims_eq h]
    simp only [List.mem_map, Prod.mk.injEq, Prod.exists]
    exact ⟨k, p, List.mem_zipIdx_iff_getElem?.mpr hp, rfl, rfl⟩

theorem columns_aligned {labels : List Str} {spec : Dict Str (Cell Bool)} {sd : Dict Str (Option ℕ)} {n : ℕ}
    (hne : labels ≠ []) (hn : labels.Nodup) (h : Spec.Columns labels spec sd n) :
    Spec.Aligned spec (permVals labels) (List.replicate labels.length 2) (permDims labels) sd n := by
  have kv : (permDims labels).keys = labels := by
    rw [permDims_eq hn, Dict.keys]
    simp [Function.comp_def]
  have kw : (permVals labels).keys = labels := by
    rw [permVals_eq hn, Dict.keys]
    simp [Function.comp_def]
  refine ⟨?_, by rw [kv]; exact hn, h.nodupS, by rw [kw]; exact h.keys, by rw [kv]; exact h.keys,
    fun k => (h.keys k).trans (h.keysS k).symm, ?_, ?_, ?_, h.incS, h.axes⟩
  · rintro rfl
    obtain ⟨l, ls, rfl⟩ := List.exists_cons_of_ne_nil hne
    have := (h.keys l).mpr (by simp)
    simp at this
  · intro k hk
    have hk := (h.keys k).mp hk
    obtain ⟨p, hp⟩ := List.mem_iff_getElem?.mp hk
    refine ⟨labels.length, [false, true], p, ?_, (get?_permDims hn).mpr ⟨p, hp, rfl⟩, ?_, ?_⟩
    · apply Dict.get?_of_mem (by rw [kw]; exact hn)
      rw [permVals_eq hn]
      exact List.mem_map.mpr ⟨k, hk, rfl⟩
    · simp [(List.getElem?_eq_some_iff.mp hp).1]
    · rcases h.each k hk with ⟨x, h1, h2⟩ | h1
      · refine Or.inl ⟨x, h1, h2, ?_⟩
        cases x <;> rfl
      · exact Or.inr h1
  · intro a m ha
    right
    have : a < labels.length := by simpa using (List.getElem?_eq_some_iff.mp ha).1
    exact ⟨labels[a], (get?_permDims hn).mpr ⟨a, List.getElem?_eq_getElem this, rfl⟩⟩
  · rw [permDims_eq hn, List.filterMap_map]
    have : labels.zipIdx.filterMap (Prod.snd ∘ fun ld : Str × ℕ => (ld.1, some ld.2)) = List.range labels.length := by
      rw [show (Prod.snd ∘ fun ld : Str × ℕ => (ld.1, some ld.2)) = fun ld => some ld.2 from rfl]
      rw [List.filterMap_eq_map', List.zipIdx_eq_zip_range', List.map_snd_zip (by simp), List.range_eq_range']
    rw [this]
    exact List.pairwise_lt_range

/-- C64: the function returned by `bool_perm_freq` gives, at every entry of the
result, the share of rows of the table with the booleans asked for.  (The axes
of the result must have the order of the columns: see `C64_claim_fails`.) -/
theorem C64_frequencies_partial (junk : ℝ) (rows : List (List Bool)) (labels : List Str) (hne : labels ≠ [])
    (hn : labels.Nodup) (hrows : rows ≠ []) (spec : Dict Str (Cell Bool)) (sdims : Dict Str (Option ℕ)) (n : ℕ)
    (h : Spec.Columns labels spec sdims n) :
    ∃ r, permCall junk rows labels.length labels (some sdims) none spec = .ok r ∧
      permCall junk rows labels.length labels (some sdims) (some spec) [] = .ok r ∧ r.shape.length = n ∧
      ∀ j ∈ idx r.shape, (∃ row : List Bool, row.length = labels.length ∧ Spec.RowAt labels spec sdims row j) ∧
        ∀ row : List Bool, row.length = labels.length → Spec.RowAt labels spec sdims row j →
          r.get j = (rows.count row : ℝ) / rows.length := by
  have hal := columns_aligned hne hn h
  have hord : Spec.SameOrder (permDims labels) sdims := by
    have fwd : ∀ (k l : Str) (a b c d : ℕ), labels[a]? = some k → labels[b]? = some l → a < b →
        Dict.get? sdims k = some (some c) → Dict.get? sdims l = some (some d) → c < d := by
      intro k l a b c d ha hb hab hc hd
      obtain ⟨la, ha⟩ := List.getElem?_eq_some_iff.mp ha
      obtain ⟨lb, hb⟩ := List.getElem?_eq_some_iff.mp hb
      have := List.pairwise_iff_getElem.mp h.order a b la lb hab
      rw [ha, hb] at this
      exact this c d hc hd
    intro k l a b c d ha hb hc hd
    obtain ⟨p, hp, hpa⟩ := (get?_permDims hn).mp ha
    obtain ⟨q, hq, hqb⟩ := (get?_permDims hn).mp hb
    cases hpa; cases hqb
    constructor
    · intro hab
      exact fwd k l a b c d hp hq hab hc hd
    · intro hcd
      by_contra hab
      rcases Nat.lt_or_eq_of_le (Nat.le_of_not_lt hab) with hlt | heq
      · have := fwd l k b a d c hq hp hlt hd hc
        omega
      · subst heq
        rw [hp] at hq
        cases hq
        rw [hc] at hd
        cases hd
        omega
  obtain ⟨r, hr, hlen, _, _, hget⟩ := C64_slice_partial junk spec (permVals labels) (permArr rows labels.length)
    (permDims labels) sdims n hal hord
  refine ⟨r, ?_, ?_, hlen, ?_⟩
  · simp only [permCall, ne_eq, not_true_eq_false, if_false]
    exact hr
  · simp only [permCall, ne_eq, not_true_eq_false, if_false]
    exact hr
  · intro j hj
    obtain ⟨⟨i, hi, hpick⟩, hall⟩ := hget j hj
    change i ∈ idx (List.replicate labels.length 2) at hi
    have hil : i.length = labels.length := by simpa using length_of_mem_idx hi
    have getv : ∀ k ∈ labels, Dict.get? (permVals labels) k = some (.array labels.length [false, true]) := by
      intro k hk
      apply Dict.get?_of_mem
      · rw [permVals_eq hn, Dict.keys]; simpa [Function.comp_def] using hn
      · rw [permVals_eq hn]; exact List.mem_map.mpr ⟨k, hk, rfl⟩
    have bits : ∀ p u : ℕ, i[p]? = some u → u < 2 := by
      intro p u hu
      have hp : p < labels.length := by
        have := (List.getElem?_eq_some_iff.mp hu).1; omega
      exact (mem_idx_iff.mp hi).2 p u 2 hu (by simp [hp])
    constructor
    · refine ⟨i.map fun b => decide (b = 1), by simpa using hil, ?_⟩
      intro p k hp
      have hk : k ∈ labels := List.mem_of_getElem? hp
      obtain ⟨g1, g2⟩ := hpick k p ((get?_permDims hn).mpr ⟨p, hp, rfl⟩)
      constructor
      · intro x hx
        obtain ⟨q, hq, hqx⟩ := g2 x _ _ hx (getv k hk)
        rw [List.getElem?_map, hq]
        rcases q with _ | _ | q
        · simpa using hqx
        · simpa using hqx
        · simp at hqx
      · intro b hb
        have := g1 b hb
        have hpi : p < i.length := by
          have := (List.getElem?_eq_some_iff.mp hp).1; omega
        have h2 := bits p _ (List.getElem?_eq_getElem hpi)
        rw [List.getElem?_map, ← this, List.getElem?_eq_getElem hpi]
        refine ⟨_, rfl, ?_⟩
        rcases hv : i[p] with _ | _ | v
        · rfl
        · rfl
        · rw [hv] at h2; omega
    · intro row hrl hrow
      have hmem : row.map Bool.toNat ∈ idx (permArr rows labels.length).shape := by
        rw [mem_idx_iff]
        refine ⟨by simp [permArr, hrl], ?_⟩
        intro p u m hu hm
        have : m = 2 := by
          have := List.mem_of_getElem? hm
          exact List.eq_of_mem_replicate this
        subst this
        rw [List.getElem?_map] at hu
        cases hrp : row[p]? with
        | none => rw [hrp] at hu; simp at hu
        | some y =>
          rw [hrp] at hu
          simp only [Option.map_some, Option.some.injEq] at hu
          subst hu
          cases y <;> decide
      have hp : Spec.Picks spec (permVals labels) (permDims labels) sdims (row.map Bool.toNat) j := by
        intro k a ha
        obtain ⟨p, hp, hpa⟩ := (get?_permDims hn).mp ha
        cases hpa
        obtain ⟨g1, g2⟩ := hrow a k hp
        constructor
        · intro b hb
          obtain ⟨y, hy, hj⟩ := g2 b hb
          rw [List.getElem?_map, hy, hj]
          rfl
        · intro x m xs hx hxs
          rw [getv k (List.mem_of_getElem? hp)] at hxs
          cases hxs
          refine ⟨x.toNat, ?_, ?_⟩
          · rw [List.getElem?_map, g1 x hx]; rfl
          · cases x <;> rfl
      rw [hall _ hmem hp]
      have hmap : (row.map Bool.toNat).map (fun b => decide (b = 1)) = row := by
        rw [List.map_map]
        conv_rhs => rw [← List.map_id row]
        apply List.map_congr_left
        intro y _
        cases y <;> rfl
      simp only [permArr, hmap, permRelFreq, C49_counts]
      rw [if_neg (by simpa using hrows)]
      simp

/-- C64: the function needs to be told the axes, takes either a dictionary or
keywords, and the labels must be as many as the columns. -/
theorem C64_function_refuses (junk : ℝ) (rows : List (List Bool)) (cols : ℕ) (labels : List Str)
    (dims : Option (Dict Str (Option ℕ))) (spec : Option (Dict Str (Cell Bool))) (kwds : Dict Str (Cell Bool))
    (h : dims = none ∨ (spec ≠ none ∧ kwds ≠ []) ∨ labels.length ≠ cols) :
    Raises (permCall junk rows cols labels dims spec kwds) := by
  unfold permCall
  split
  · exact ⟨_, rfl⟩
  · rename_i hl
    rcases h with rfl | ⟨h1, h2⟩ | h
    · exact ⟨_, rfl⟩
    · cases dims with
      | none => exact ⟨_, rfl⟩
      | some sd =>
        cases spec with
        | none => exact absurd rfl h1
        | some s =>
          simp only
          rw [if_pos h2]
          exact ⟨_, rfl⟩
    · exact absurd h hl

/-! ### Non-vacuity -/

/-- `x` given by the number 1, `y` by both values along the only axis. -/
def rowSpec : Dict Str (Cell ℕ) := [(['x'], .scalar 1), (['y'], .array 1 [0, 1])]
/-- The axes of that result. -/
def rowDims : Dict Str (Option ℕ) := [(['x'], none), (['y'], some 0)]

theorem row_aligned : Spec.Aligned rowSpec gridVals [2, 2] gridDims rowDims 1 where
  nonempty := by simp [rowSpec]
  nodupV := by simp [gridDims, Dict.keys]
  nodupS := by simp [rowDims, Dict.keys]
  keysVals := fun _ => Iff.rfl
  keysV := fun _ => Iff.rfl
  keysS := fun _ => Iff.rfl
  each := by
    intro k hk
    simp only [rowSpec, Dict.keys, List.map_cons, List.map_nil, List.mem_cons, List.not_mem_nil, or_false] at hk
    rcases hk with rfl | rfl
    · exact ⟨2, [0, 1], 0, rfl, rfl, rfl, Or.inl ⟨1, rfl, rfl, rfl⟩⟩
    · exact ⟨2, [0, 1], 1, rfl, rfl, rfl, Or.inr ⟨0, rfl, rfl, by omega⟩⟩
  others := grid_swapped.others
  incV := grid_swapped.incV
  incS := by simp [rowDims]
  axes := Or.inr ⟨['y'], 1, [0, 1], rfl⟩

/-- C64: the second row of a table of two rows. -/
example : Spec.Aligned rowSpec gridVals [2, 2] gridDims rowDims 1 ∧ Spec.SameOrder gridDims rowDims := by
  refine ⟨row_aligned, ?_⟩
  intro k l a b c d ha hb hc hd
  have hk : k = ['y'] := by
    have := Dict.get?_mem hc
    simp only [rowDims, List.mem_cons, Prod.mk.injEq, reduceCtorEq, and_false, false_or, List.not_mem_nil,
      or_false] at this
    exact this.1
  have hl : l = ['y'] := by
    have := Dict.get?_mem hd
    simp only [rowDims, List.mem_cons, Prod.mk.injEq, reduceCtorEq, and_false, false_or, List.not_mem_nil,
      or_false] at this
    exact this.1
  subst hk; subst hl
  rw [ha] at hb; rw [hc] at hd
  cases hb; cases hd
  simp

/-- C64: the refusals concern calls like the one above with a single change. -/
example : (∀ k, Dict.get? gridDims k ≠ some none) ∧ 2 ≤ ([1, 1] : List ℕ).count 1 ∧ (7 : ℕ) ∉ [0, 1] ∧
    ([0, 1] : List ℕ) ≠ [1, 0] ∧ Dict.get? rowDims ['x'] = some none ∧ Dict.get? gridDims ['x'] = some (some 0) ∧
    ¬ (((rowDims ++ [(['z'], some 0)]).filterMap Prod.snd).Pairwise (· < ·)) ∧
    ¬ (['z'] ∈ Dict.keys gridVals ↔ ['z'] ∈ Dict.keys (gridVals ++ [(['z'], .scalar 0)])) := by
  refine ⟨?_, by simp, by simp, by simp, rfl, rfl, by simp [rowDims], by simp [gridVals, Dict.keys]⟩
  intro k hk
  have := Dict.get?_mem hk
  simp [gridDims] at this

/-- C64: columns `x`, `y`; the frequencies of both values of `y` where `x` is true. -/
example : Spec.Columns [['x'], ['y']] [(['x'], .scalar true), (['y'], .array 1 [false, true])] rowDims 1 where
  nodupS := by simp [rowDims, Dict.keys]
  keys := by simp [Dict.keys]
  keysS := by simp [rowDims, Dict.keys]
  each := by
    intro k hk
    simp only [List.mem_cons, List.not_mem_nil, or_false] at hk
    rcases hk with rfl | rfl
    · exact Or.inl ⟨true, rfl, rfl⟩
    · exact Or.inr ⟨0, rfl, rfl, by omega⟩
  order := by
    simp only [List.pairwise_cons, List.mem_cons, List.not_mem_nil, or_false, forall_eq, IsEmpty.forall_iff,
      implies_true, List.Pairwise.nil, and_true]
    intro b c hb
    have : Dict.get? rowDims ['x'] = some none := rfl
    rw [this] at hb; cases hb
  incS := by simp [rowDims]
  axes := Or.inr ⟨['y'], 1, [false, true], rfl⟩

end Probayes
