/-
C19: factors with the same variables given as sets of one integer (numbers of
observations), which are added up.
-/
import Verif.Props.PDProduct
import Verif.Props.PDCond
import Verif.Props.PDRefuse

namespace Probayes

/-- Distributions of the same variables `ks`, each given as a set of one integer `cnt`
(pd_utils.py:112-144), with the same conditions on the same axes. -/
structure Spec.Counts (fmt : Val → Str) (ks cs : List Str) (cnt : PD → Str → ℤ) (args : List PD) : Prop where
  two : 2 ≤ args.length
  wf : ∀ a ∈ args, a.WF fmt
  pos : ∀ a ∈ args, a.Pos
  ne : ks ≠ []
  marg : ∀ a ∈ args, a.marg.keys = ks
  count : ∀ a ∈ args, ∀ k ∈ ks, a.values k = some (.setint (cnt a k))
  order : ∀ a ∈ args, a.keylist = ks ++ cs
  cond : ∀ a ∈ args, ∀ b ∈ args, a.cond = b.cond
  same : ∀ a ∈ args, ∀ b ∈ args, ∀ k ∈ cs, Dict.get? a.vals k = Dict.get? b.vals k ∧ a.axis k = b.axis k
  plain : ∀ a ∈ args, ∀ k ∈ cs, ∀ n, a.values k ≠ some (.setint n)
  /-- the total can be written in a name -/
  text : ∀ k ∈ ks, Spec.Entry k (eqText fmt k (.setint (args.map fun a => cnt a k).sum))

/-- `r` is the joint distribution: the integers are added and the probabilities
multiplied. -/
structure Spec.Total (ks cs : List Str) (cnt : PD → Str → ℤ) (args : List PD) (r : PD) : Prop where
  keylist : r.keylist = ks ++ cs
  marg : r.marg.keys = ks
  cond : ∀ a ∈ args, r.cond = a.cond
  count : ∀ k ∈ ks, r.values k = some (.setint (args.map fun a => cnt a k).sum)
  given : ∀ a ∈ args, ∀ k ∈ cs, r.values k = a.values k
  axis : ∀ a ∈ args, ∀ k, r.axis k = a.axis k
  shape : ∀ a ∈ args, r.shape = a.shape
  entry : ∀ j ∈ idx r.shape, r.at j = (args.map fun a => a.at j).prod

section
variable {fmt : Val → Str} {ks cs : List Str} {cnt : PD → Str → ℤ} {args : List PD}

theorem isunit_iff (v : Val) : v.isunitsetint = true ↔ ∃ n, v = .setint n := by
  cases v <;> simp [Val.isunitsetint]

/-- Linear scales multiply. -/
theorem linearScale (hwf : ∀ a ∈ args, a.WF fmt) (hne : args ≠ [])
    (hlin : ∀ a ∈ args, a.pscale.iscomplex = false) :
    prodPscale (args.map fun a => a.pscale.spec) none =
      .ok (some (.lin (args.map fun a => Spec.factor a.pscale).prod)) ∧
    evalPscale (PScale.lin (args.map fun a => Spec.factor a.pscale).prod).spec =
      .ok (.lin (args.map fun a => Spec.factor a.pscale).prod) ∧
    ∀ xs : List ℝ, xs.length = args.length → ∀ y, prodRule xs (args.map fun a => a.pscale.spec) none none =
      .ok (y, (PScale.lin (args.map fun a => Spec.factor a.pscale).prod).spec) →
      Spec.value (.lin (args.map fun a => Spec.factor a.pscale).prod) y =
        (List.zipWith Spec.value (args.map PD.pscale) xs).prod := by
  have hE : Spec.Evaluates ((args.map PD.pscale).map PScale.spec) (args.map PD.pscale) := by
    have key : ∀ l : List PD, (∀ a ∈ l, a.WF fmt) →
        Spec.Evaluates ((l.map PD.pscale).map PScale.spec) (l.map PD.pscale) := by
      intro l
      induction l with
      | nil => intro _; exact .nil
      | cons a l ih =>
        intro h
        exact .cons (h a (by simp)).stable (ih fun b hb => h b (by simp [hb]))
    exact key args hwf
  have e : (args.map fun a => a.pscale.spec) = (args.map PD.pscale).map PScale.spec := by
    rw [List.map_map]; rfl
  have e' : (args.map fun a => Spec.factor a.pscale) = (args.map PD.pscale).map Spec.factor := by
    rw [List.map_map]; rfl
  rw [e, e']
  set ss := args.map PD.pscale with hss
  have hl : ∀ s ∈ ss, s.iscomplex = false := by
    intro s hs
    obtain ⟨a, ha, rfl⟩ := List.mem_map.mp hs
    exact hlin a ha
  have hssne : ss ≠ [] := by simpa [hss] using hne
  have hemp : ss.isEmpty = false := by simpa using hssne
  have hany : (ss.map PScale.spec).any PSpec.iscomplex = false := by
    simp only [List.any_eq_false, List.mem_map]; rintro _ ⟨s, hs, rfl⟩
    simp [spec_iscomplex, hl s hs]
  refine ⟨?_, ?_, ?_⟩
  · simp [prodPscale, hemp, hany, prodPscaleLin_eq _ ss hE, bind, Except.bind, pure, Except.pure]
  · have hnz : (ss.map Spec.factor).prod ≠ 0 := by
      rw [Ne, List.prod_eq_zero_iff]
      intro h0
      obtain ⟨s, hs1, hs2⟩ := List.mem_map.mp h0
      obtain ⟨a, ha, rfl⟩ := List.mem_map.mp hs1
      have hst := (hwf a ha).stable
      have hla := hlin a ha
      rcases hps : a.pscale with c | ⟨re, im⟩
      · rw [hps] at hs2 hst
        simp only [Spec.factor] at hs2
        subst hs2
        simp [PScale.spec, evalPscale, complexZero] at hst
      · rw [hps] at hla; simp [PScale.iscomplex] at hla
    simp only [PScale.spec, evalPscale, hnz, if_false]
    split
    · rename_i h; rw [h]
    · rfl
  · intro xs hxs y hy
    have hlen : xs.length = ss.length := by simp [hss, hxs]
    obtain ⟨y', s', h3, h4, h5⟩ := C05_linear_partial xs ss
      (by intro h0; rw [h0] at hlen; exact hssne (List.length_eq_zero_iff.mp hlen.symm)) hlen hE hl
    rw [hy] at h3
    simp only [Except.ok.injEq, Prod.mk.injEq] at h3
    obtain ⟨rfl, h3⟩ := h3
    rcases s' with c | ⟨re, im⟩
    · simp only [PScale.spec, PSpec.flt.injEq] at h3
      rw [h3, h5]
    · simp [PScale.iscomplex] at h4

/-- The values of a factor. -/
def countVals (ks cs : List Str) (f : Str → ℤ) (a : PD) : Dict Str Val :=
  (ks.map fun k => (k, Val.setint (f k))) ++ cs.map fun k => (k, (Dict.get? a.vals k).getD .other)

theorem keys_countVals (f : Str → ℤ) (a : PD) : Dict.keys (countVals ks cs f a) = ks ++ cs := by
  simp [countVals, Dict.keys, Function.comp_def]

theorem get?_mapKey {V : Type} (l : List Str) (f : Str → V) (k : Str) :
    Dict.get? (l.map fun k => (k, f k)) k = if k ∈ l then some (f k) else none := by
  induction l with
  | nil => rfl
  | cons x l ih =>
    simp only [List.map_cons, Dict.get?, ih, List.mem_cons]
    by_cases h : x = k
    · simp [h]
    · simp [h, Ne.symm h]

theorem get?_countVals (f : Str → ℤ) (a : PD) (k : Str) : Dict.get? (countVals ks cs f a) k =
    if k ∈ ks then some (.setint (f k)) else if k ∈ cs then some ((Dict.get? a.vals k).getD .other)
    else none := by
  rw [countVals, Dict.get?_append, get?_mapKey, get?_mapKey]
  split <;> rfl

namespace Spec.Counts
variable (F : Spec.Counts fmt ks cs cnt args)
include F

theorem nodup : (ks ++ cs).Nodup := by
  rcases args with _ | ⟨a, _⟩
  · have := F.two; simp at this
  · rw [← F.order a (by simp)]; exact (F.wf a (by simp)).nodup

theorem vals_eq {a : PD} (ha : a ∈ args) : a.vals = countVals ks cs (cnt a) a := by
  apply Dict.ext_get? (F.wf a ha).nodup
  · rw [keys_countVals]; exact F.order a ha
  · intro k
    rw [get?_countVals]
    split
    · rename_i hk
      have := F.count a ha k hk
      obtain ⟨v, hv, hf⟩ := Option.map_eq_some_iff.mp this
      rw [hv, flat_setint hf]
    · split
      · rename_i hk
        have : k ∈ Dict.keys a.vals := by
          have h1 : Dict.keys a.vals = ks ++ cs := F.order a ha
          rw [h1]; simp [hk]
        obtain ⟨v, hv⟩ := Dict.get?_of_mem_keys this
        rw [hv]; rfl
      · rename_i h1 h2
        rw [Dict.get?_eq_none]
        have h3 : Dict.keys a.vals = ks ++ cs := F.order a ha
        rw [h3]; simp [h1, h2]

theorem countVals_eq {a b : PD} (ha : a ∈ args) (hb : b ∈ args) (f : Str → ℤ) :
    countVals ks cs f a = countVals ks cs f b := by
  unfold countVals
  congr 1
  apply List.map_congr_left
  intro k hk
  rw [(F.same a ha b hb k hk).1]

theorem plainVal {a : PD} (ha : a ∈ args) {k : Str} (hk : k ∈ cs) :
    ((Dict.get? a.vals k).getD .other).isunitsetint = false := by
  by_contra hc
  rw [Bool.not_eq_false, isunit_iff] at hc
  obtain ⟨n, hn⟩ := hc
  rcases hv : Dict.get? a.vals k with _ | v
  · rw [hv] at hn; simp at hn
  · rw [hv] at hn
    simp only [Option.getD_some] at hn
    exact F.plain a ha k hk n (by rw [PD.values, hv, hn]; rfl)

theorem flags {a : PD} (ha : a ∈ args) : (a.vals.map fun kv => kv.2.isunitsetint) =
    (ks.map fun _ => true) ++ cs.map fun _ => false := by
  rw [F.vals_eq ha, countVals, List.map_append, List.map_map, List.map_map]
  congr 1
  apply List.map_congr_left
  intro k hk
  exact F.plainVal ha hk

theorem unitFlags {a : PD} (ha : a ∈ args) :
    (ks.mapM fun k => do return (← a.getItem k).isunitsetint : Py (List Bool)) =
      .ok (ks.map fun _ => true) := by
  have key : ∀ l : List Str, (∀ k ∈ l, k ∈ ks) →
      (l.mapM fun k => do return (← a.getItem k).isunitsetint : Py (List Bool)) =
      .ok (l.map fun _ => true) := by
    intro l
    induction l with
    | nil => intro _; rfl
    | cons k l ih =>
      intro hl
      have hg : a.getItem k = .ok (.setint (cnt a k)) := by
        unfold PD.getItem
        rw [F.vals_eq ha, get?_countVals, if_pos (hl k (by simp))]
      rw [List.mapM_cons, hg, ih fun k' hk' => hl k' (by simp [hk'])]
      rfl
  exact key ks fun _ h => h

theorem unitSets_rest (l : List PD) (hl : ∀ a ∈ l, a ∈ args) (c : List Str)
    (hc : ∀ a ∈ args, a.cond.keys = c) :
    unitSets l (some ks) (some c) (some (ks.map fun _ => true)) = .ok (some (ks.map fun _ => true)) := by
  induction l with
  | nil => rfl
  | cons a l ih =>
    have ha := hl a (by simp)
    have hne : ks.isEmpty = false := by simpa using F.ne
    unfold unitSets
    simp only [Option.getD_some, F.marg a ha, hc a ha, ne_eq, not_true_eq_false, if_false, hne,
      Bool.false_eq_true]
    rw [F.unitFlags ha]
    simp only [bind, Except.bind, if_true]
    exact ih fun b hb => hl b (by simp [hb])

theorem unitSets_ok : unitSets args none none none = .ok (some (ks.map fun _ => true)) := by
  rcases hargs : args with _ | ⟨a, l⟩
  · have := F.two; rw [hargs] at this; simp at this
  have ha : a ∈ args := by rw [hargs]; simp
  have hne : ks.isEmpty = false := by simpa using F.ne
  have hany : (ks.map fun _ => true).any id = true := by
    obtain ⟨k, hk⟩ := List.exists_mem_of_ne_nil _ F.ne
    rw [List.any_eq_true]
    exact ⟨true, List.mem_map.mpr ⟨k, hk, rfl⟩, rfl⟩
  unfold unitSets
  simp only [Option.getD_none, F.marg a ha, ne_eq, not_true_eq_false, if_false, hne,
    Bool.false_eq_true]
  rw [F.unitFlags ha]
  simp only [bind, Except.bind, hany, if_true]
  exact F.unitSets_rest l (fun b hb => by rw [hargs]; simp [hb]) _ fun b hb => by rw [F.cond b hb a ha]

/-- Adding one factor. -/
theorem addFactor {a : PD} (ha : a ∈ args) (f : Str → ℤ) :
    fastVals (some (ks.map fun _ => true)) (countVals ks cs f a) a.vals =
      .ok (countVals ks cs (fun k => f k + cnt a k) a) := by
  have hany : ((ks.map fun _ => true) ++ cs.map fun _ => false).any id = true := by
    obtain ⟨k, hk⟩ := List.exists_mem_of_ne_nil _ F.ne
    rw [List.any_eq_true]
    exact ⟨true, List.mem_append_left _ (List.mem_map.mpr ⟨k, hk, rfl⟩), rfl⟩
  have hpv : (countVals ks cs f a).isEmpty = false := by
    obtain ⟨k, l, rfl⟩ := List.exists_cons_of_ne_nil F.ne
    rfl
  unfold fastVals
  simp only [F.flags ha, hany, not_true_eq_false, if_false]
  have htake : ((ks.map fun _ => true) ++ cs.map fun _ => false).take (ks.map fun _ => true).length =
      ks.map fun _ => true := by simp
  simp only [htake, ne_eq, not_true_eq_false, if_false, hpv, Bool.false_eq_true, keys_countVals]
  have hnd := F.nodup
  obtain ⟨r, h1, h2, h3⟩ := foldlM_prefix (l := (ks ++ cs).zipIdx) (s0 := countVals ks cs f a)
    (f := fun acc kj => match ((ks.map fun _ => true) ++ cs.map fun _ => false)[kj.2]? with
        | none => .error .index
        | some false => .ok acc
        | some true => match Dict.get? acc kj.1, Dict.get? a.vals kj.1 with
          | some a, some b => do return Dict.set acc kj.1 (← addSets a b)
          | _, _ => .error .key)
    (fun pre st => Dict.keys st = ks ++ cs ∧ ∀ k, Dict.get? st k =
      if k ∈ pre.map Prod.fst ∧ k ∈ ks then some (.setint (f k + cnt a k))
      else Dict.get? (countVals ks cs f a) k)
    ⟨keys_countVals _ _, by simp⟩ (by
      rintro pre ⟨k, n⟩ post st hl ⟨i1, i2⟩
      have hkn : (ks ++ cs)[n]? = some k := by
        have : (k, n) ∈ (ks ++ cs).zipIdx := by rw [hl]; simp
        simpa using List.mem_zipIdx_iff_getElem?.mp this
      have hkpre : k ∉ pre.map Prod.fst := by
        intro hc
        have h2 : ((ks ++ cs).zipIdx.map Prod.fst) = ks ++ cs := by
          rw [List.zipIdx_map_fst]
        rw [hl, List.map_append] at h2
        rw [← h2, List.nodup_append] at hnd
        exact hnd.2.2 k hc k (by simp) rfl
      have hkp : ∀ k', k' ∈ (pre ++ [(k, n)]).map Prod.fst ↔ k' ∈ pre.map Prod.fst ∨ k' = k := by
        intro k'; rw [List.map_append, List.mem_append]; simp
      by_cases hn : n < ks.length
      · have hk : k ∈ ks := by
          rw [List.getElem?_append_left hn] at hkn
          exact List.mem_of_getElem? hkn
        have hfl : ((ks.map fun _ => true) ++ cs.map fun _ => false)[n]? = some true := by
          rw [List.getElem?_append_left (by simpa using hn), List.getElem?_map,
            List.getElem?_eq_getElem hn]
          rfl
        have g1 : Dict.get? st k = some (.setint (f k)) := by
          rw [i2, if_neg (by tauto), get?_countVals, if_pos hk]
        have g2 : Dict.get? a.vals k = some (.setint (cnt a k)) := by
          rw [F.vals_eq ha, get?_countVals, if_pos hk]
        refine ⟨Dict.set st k (.setint (f k + cnt a k)), ?_, ?_, ?_⟩
        · simp only [hfl, g1, g2, addSets, bind, Except.bind, pure, Except.pure]
        · rw [Dict.keys_set, if_pos (by rw [i1]; simp [hk]), i1]
        · intro k'
          rw [Dict.get?_set, i2]
          simp only [hkp]
          by_cases hkk : k = k'
          · subst hkk; simp [hk]
          · simp only [hkk, Ne.symm hkk, if_false, or_false]
      · have hk : k ∉ ks := by
          intro hk
          have hn' : k ∈ cs := by
            rw [List.getElem?_append_right (by omega)] at hkn
            exact List.mem_of_getElem? hkn
          rw [List.nodup_append] at hnd
          exact hnd.2.2 k hk k hn' rfl
        have hlt : n < (ks ++ cs).length := (List.getElem?_eq_some_iff.mp hkn).1
        have hfl : ((ks.map fun _ => true) ++ cs.map fun _ => false)[n]? = some false := by
          rw [List.length_append] at hlt
          rw [List.getElem?_append_right (by simpa using hn), List.getElem?_map, List.length_map,
            List.getElem?_eq_getElem (show n - ks.length < cs.length by omega)]
          rfl
        refine ⟨st, by simp only [hfl], i1, ?_⟩
        intro k'
        rw [i2]
        simp only [hkp]
        by_cases hkk : k' = k
        · subst hkk; simp [hk]
        · simp only [hkk, or_false])
  refine h1.trans ?_
  congr 1
  apply Dict.ext_get? (by rw [h2]; exact hnd) (by rw [h2, keys_countVals])
  intro k
  rw [h3, get?_countVals, get?_countVals, List.zipIdx_map_fst]
  by_cases hk : k ∈ ks
  · simp [hk]
  · simp [hk]

/-- The loop over the factors. -/
theorem addAll {first : PD} {rest : List PD} (hargs : args = first :: rest) :
    args.foldlM (fun pv a => fastVals (some (ks.map fun _ => true)) pv a.vals) [] =
      .ok (countVals ks cs (fun k => (args.map fun a => cnt a k).sum) first) := by
  have hf : first ∈ args := by rw [hargs]; simp
  have hstart : fastVals (some (ks.map fun _ => true)) [] first.vals = .ok (countVals ks cs (cnt first) first) := by
    have hany : ((ks.map fun _ => true) ++ cs.map fun _ => false).any id = true := by
      obtain ⟨k, hk⟩ := List.exists_mem_of_ne_nil _ F.ne
      rw [List.any_eq_true]
      exact ⟨true, List.mem_append_left _ (List.mem_map.mpr ⟨k, hk, rfl⟩), rfl⟩
    have htake : ((ks.map fun _ => true) ++ cs.map fun _ => false).take (ks.map fun _ => true).length =
        ks.map fun _ => true := by simp
    unfold fastVals
    simp only [F.flags hf, hany, not_true_eq_false, if_false, htake, ne_eq, List.isEmpty_nil, if_true]
    rw [← F.vals_eq hf]
    exact congrArg Except.ok (Dict.ofUpdates_of_nodup (F.wf first hf).nodup)
  have key : ∀ (l : List PD) (f : Str → ℤ), (∀ a ∈ l, a ∈ args) →
      l.foldlM (fun pv a => fastVals (some (ks.map fun _ => true)) pv a.vals) (countVals ks cs f first) =
        .ok (countVals ks cs (fun k => f k + (l.map fun a => cnt a k).sum) first) := by
    intro l
    induction l with
    | nil => intro f _; simp [pure, Except.pure]
    | cons a l ih =>
      intro f hl
      have ha := hl a (by simp)
      rw [List.foldlM_cons, F.countVals_eq hf ha, F.addFactor ha, ← F.countVals_eq hf ha]
      simp only [bind, Except.bind]
      rw [ih _ fun b hb => hl b (by simp [hb])]
      simp [add_assoc]
  rw [hargs, List.foldlM_cons, hstart]
  simp only [bind, Except.bind]
  rw [key rest _ fun a ha => by rw [hargs]; simp [ha]]
  simp

/-- What `product` returns for such factors. -/
theorem product_counts {s p : PScale} (hs : prodPscale (args.map fun a => a.pscale.spec) none = .ok (some s))
    (hp : evalPscale s.spec = .ok p) :
    ∃ r, product fmt args = .ok (some r) ∧ r.WF fmt ∧ r.keylist = ks ++ cs ∧ r.marg.keys = ks ∧
      (∀ a ∈ args, r.cond = a.cond) ∧
      (∀ k ∈ ks, r.values k = some (.setint (args.map fun a => cnt a k).sum)) ∧
      (∀ a ∈ args, ∀ k ∈ cs, r.values k = a.values k) ∧
      (∀ a ∈ args, ∀ k, r.axis k = a.axis k) ∧ (∀ a ∈ args, r.shape = a.shape) ∧ r.pscale = p ∧
      ∀ j ∈ idx r.shape, prodRule (args.map fun a => a.prob.get j) (args.map fun a => a.pscale.spec)
        none none = .ok (r.prob.get j, s.spec) := by
  rcases hargs : args with _ | ⟨first, rest⟩
  · have := F.two; rw [hargs] at this; simp at this
  rw [← hargs]
  have hf : first ∈ args := by rw [hargs]; simp
  have hw := F.wf first hf
  have hpp : productPscale args = .ok s := by simp [productPscale, hs, bind, Except.bind, pure, Except.pure]
  have haxis : ∀ a ∈ args, ∀ b ∈ args, ∀ k, a.axis k = b.axis k := by
    intro a ha b hb k
    by_cases hk : k ∈ cs
    · exact (F.same a ha b hb k hk).2
    · have key : ∀ a ∈ args, a.axis k = none := by
        intro a ha
        rcases hak : a.axis k with _ | x
        · rfl
        obtain ⟨s, data, h1, _⟩ := (F.wf a ha).axis_some hak
        rw [F.vals_eq ha, get?_countVals] at h1
        by_cases hk' : k ∈ ks
        · rw [if_pos hk'] at h1; simp at h1
        · rw [if_neg hk', if_neg hk] at h1; simp at h1
      rw [key a ha, key b hb]
  have hshape : ∀ a ∈ args, ∀ b ∈ args, a.shape = b.shape := by
    have key : ∀ a ∈ args, ∀ b ∈ args, ∀ c n : ℕ, a.shape[c]? = some n → b.shape[c]? = some n := by
      intro a ha b hb c n hn
      have hc : c < a.ndim := by
        rw [← (F.wf a ha).rank]; exact (List.getElem?_eq_some_iff.mp hn).1
      obtain ⟨k, hk⟩ := (F.wf a ha).cover c hc
      obtain ⟨s, data, h1, _, h3, _⟩ := (F.wf a ha).axis_some hk
      have hkb := hk
      rw [haxis a ha b hb] at hkb
      obtain ⟨s', data', h1', _, h3', _⟩ := (F.wf b hb).axis_some hkb
      have hkc : k ∈ cs := by
        by_contra hkc
        rw [F.vals_eq ha, get?_countVals, if_neg hkc] at h1
        split at h1 <;> simp at h1
      rw [(F.same a ha b hb k hkc).1, h1'] at h1
      simp only [Option.some.injEq, Val.arr.injEq] at h1
      rw [h3', h1.2, ← h3, hn]
    intro a ha b hb
    apply List.ext_getElem?
    intro c
    rcases h1 : a.shape[c]? with _ | n
    · rcases h2 : b.shape[c]? with _ | n
      · rfl
      · rw [key b hb a ha c n h2] at h1; simp at h1
    · rw [key a ha b hb c n h1]
  -- probabilities
  obtain ⟨prob, r1, r2, r3⟩ := prodRuleArr_ok (qs := args.map PD.prob) (ss := args.map PD.pscale)
    (S := first.shape) (by rw [hargs]; simp) (by simp) (by
      intro q hq
      obtain ⟨a, ha, rfl⟩ := List.mem_map.mp hq
      rw [(F.wf a ha).probShape, hshape a ha first hf]
      exact Or.inr (Fits.refl _)) (by
      intro c hc
      exact ⟨first.prob, List.mem_map_of_mem hf, by rw [hw.probShape]; rfl⟩)
    (by rw [List.map_map]; exact hs)
  -- the constructor
  set tot : Str → ℤ := fun k => (args.map fun a => cnt a k).sum with htot
  let marg' : Dict Str Str := ks.map fun k => (k, eqText fmt k (.setint (tot k)))
  have hmk : Dict.keys marg' = ks := by simp [marg', Dict.keys, Function.comp_def]
  have hgm : ∀ k, Dict.get? marg' k = if k ∈ ks then some (eqText fmt k (.setint (tot k))) else none :=
    fun k => get?_mapKey ks (fun k => eqText fmt k (.setint (tot k))) k
  have hnd := F.nodup
  have hget := get?_countVals (ks := ks) (cs := cs) tot first
  have hB : BuildArgs fmt marg' first.cond (countVals ks cs tot first) first.dims first.shape := by
    refine ⟨?_, by rw [keys_countVals]; exact hnd, ?_, ⟨by rw [hmk]; exact (List.nodup_append.mp hnd).1, ?_⟩,
      hw.condSide, ?_, ?_, hw.dimNodup, ?_, ?_, ?_, ?_⟩
    · intro h0
      have := keys_countVals (ks := ks) (cs := cs) tot first
      rw [h0] at this
      exact F.ne (List.append_eq_nil_iff.mp this.symm).1
    · rw [keys_countVals, ← F.order first hf]; exact hw.allowed
    · intro kt hkt
      obtain ⟨k, hk, rfl⟩ := List.mem_map.mp hkt
      exact F.text k hk
    · rw [hmk, ← F.marg first hf]; exact hw.disj
    · rw [keys_countVals, hmk, ← F.order first hf, ← F.marg first hf]; exact hw.keys
    · rw [keys_countVals, ← F.order first hf]; exact hw.dimKeys
    · intro k v hv hsv
      rw [hget] at hv
      by_cases hk : k ∈ ks
      · rw [if_pos hk] at hv
        simp only [Option.some.injEq] at hv
        subst hv
        have h1 : Dict.get? first.vals k = some (.setint (cnt first k)) := by
          rw [F.vals_eq hf, get?_countVals, if_pos hk]
        refine ⟨by rw [(hw.single k _ h1 rfl).1]; rfl, Or.inl ?_⟩
        rw [hgm, if_pos hk]
      · have hv' := hv
        rw [if_neg hk] at hv'
        have h1 : Dict.get? first.vals k = some v := by
          rw [F.vals_eq hf, get?_countVals, if_neg hk]; exact hv'
        obtain ⟨g1, g2⟩ := hw.single k v h1 hsv
        refine ⟨by rw [g1]; rfl, ?_⟩
        rcases g2 with g2 | g2
        · exact absurd (F.marg first hf ▸ Dict.mem_keys_of_get? g2) hk
        · exact Or.inr g2
    · intro k v hv hsv
      rw [hget] at hv
      by_cases hk : k ∈ ks
      · rw [if_pos hk] at hv
        simp only [Option.some.injEq] at hv
        subst hv
        simp [Val.issingleton] at hsv
      · rw [if_neg hk] at hv
        have h1 : Dict.get? first.vals k = some v := by
          rw [F.vals_eq hf, get?_countVals, if_neg hk]; exact hv
        exact hw.size_ok (F.pos first hf) h1 hsv
    · intro a ha; exact hw.cover a (by rw [← hw.rank]; exact ha)
  obtain ⟨r, b1, b2, b3, b4, b5, b6, b7, b8, b9⟩ := pdInit_ok hB prob r2 s.spec p hp
  have hname : strMargcond (joinNames first.marg.vals ++ '|' :: joinNames first.cond.vals) =
      strMargcond (margcondStr first.marg first.cond) := by
    obtain ⟨m1, m2, m3⟩ := list_chars first.marg hw.margSide.2
    obtain ⟨c1, c2, c3⟩ := list_chars first.cond hw.condSide.2
    rw [C14_render_parse _ _ hw.margSide hw.condSide]
    have hm := splitNames_side _ hw.margSide
    have hc := splitNames_side _ hw.condSide
    have m1' : '|' ∉ [','].intercalate first.marg.vals := m1
    have c1' : '|' ∉ [','].intercalate first.cond.vals := c1
    have p1 : '(' ∉ [','].intercalate first.marg.vals ++ '|' :: [','].intercalate first.cond.vals := by
      have m2' : '(' ∉ [','].intercalate first.marg.vals := m2
      have c2' : '(' ∉ [','].intercalate first.cond.vals := c2
      simp [m2', c2']
    have p2 : ')' ∉ [','].intercalate first.marg.vals ++ '|' :: [','].intercalate first.cond.vals := by
      have m2' : ')' ∉ [','].intercalate first.marg.vals := m3
      have c2' : ')' ∉ [','].intercalate first.cond.vals := c3
      simp [m2', c2']
    have hsplit : ([','].intercalate first.marg.vals ++ '|' :: [','].intercalate first.cond.vals).splitOn '|'
        = [[','].intercalate first.marg.vals, [','].intercalate first.cond.vals] := by
      rw [List.splitOn_append_cons_self_of_not_mem m1', List.splitOn_eq_singleton c1']
    unfold joinNames
    simp [strMargcond, findChar_none p1, findChar_none p2, hsplit, hm, hc, bind, Except.bind,
      pure, Except.pure]
  have hnamed := pdInit_named hB hw.margSide hw.condSide (by rw [hmk, F.marg first hf]) rfl (by
    intro k v hv hsv
    have hk : k ∉ ks := by
      intro hk
      rw [hget, if_pos hk] at hv
      simp only [Option.some.injEq] at hv
      subst hv
      simp [Val.issingleton] at hsv
    refine ⟨?_, rfl⟩
    rw [hgm, if_neg hk, Dict.get?_eq_none, F.marg first hf]
    exact hk) prob s.spec
  have hdup : ¬ (args.flatMap fun a => a.marg.keys).Nodup := by
    rcases rest with _ | ⟨b, rest⟩
    · have := F.two; rw [hargs] at this; simp at this
    intro hn
    obtain ⟨k, hk⟩ := List.exists_mem_of_ne_nil _ F.ne
    rw [hargs, List.flatMap_cons, List.flatMap_cons, List.nodup_append] at hn
    refine hn.2.2 k ?_ k ?_ rfl
    · rw [F.marg first hf]; exact hk
    · rw [F.marg b (by rw [hargs]; simp)]; exact List.mem_append_left _ hk
  have hprod : product fmt args = .ok (some r) := by
    have hres : product fmt args = (do
        let s ← productPscale args
        let fast := args.all (fun a => a.dist.issingleton) && args.all (fun a => s.numEq a.pscale)
          && s.zeroOne
        let r ← if ¬ (args.flatMap fun a => a.marg.keys).Nodup then do
            match ← unitSets args none none none with
            | none => .error .assertion
            | some sets => productFast fmt args first s (some sets)
          else if fast ∧ args.all (fun a => a.marg.vals = first.marg.vals) ∧
              (args.all (fun a => a.cond.isEmpty) ∨
                args.all (fun a => a.cond.vals = first.cond.vals)) then
            productFast fmt args first s none
          else productGeneral fmt args s fast
        return some r) := by rw [hargs]; rfl
    rw [hres, hpp]
    simp only [bind, Except.bind, hdup, not_false_eq_true, if_true, F.unitSets_ok]
    have : productFast fmt args first s (some (ks.map fun _ => true)) = .ok r := by
      unfold productFast
      rw [F.addAll hargs]
      simp only [bind, Except.bind, Option.isSome_some, if_true, r1]
      rw [pdInit_name_congr hname, hnamed]
      exact b1
    rw [this]; rfl
  have hval := hB.values b5
  refine ⟨r, hprod, b2, ?_, by rw [b3, hmk], fun a ha => by rw [b4]; exact F.cond first hf a ha, ?_, ?_, ?_,
    fun a ha => by rw [b7]; exact hshape first hf a ha, b9, ?_⟩
  · show Dict.keys r.vals = _
    rw [b5, Dict.keys_map, keys_countVals]
  · intro k hk
    rw [hval, hget, if_pos hk]; rfl
  · intro a ha k hk
    have hkk : k ∉ ks := fun h => (List.nodup_append.mp hnd).2.2 k h k hk rfl
    rw [hval, hget, if_neg hkk, if_pos hk, PD.values, F.vals_eq ha, get?_countVals, if_neg hkk, if_pos hk,
      (F.same a ha first hf k hk).1]
  · intro a ha k
    rw [b6]; exact haxis first hf a ha k
  · intro j hj
    rw [b7] at hj
    have := r3 j hj
    rw [List.map_map] at this
    rw [b8]
    rw [show (args.map fun a => a.pscale.spec) = (args.map PD.pscale).map PScale.spec by
      rw [List.map_map]; rfl, ← this]
    congr 1
    apply List.map_congr_left
    intro a ha
    exact (bget_self (a := a.prob) (by rw [(F.wf a ha).probShape, hshape a ha first hf]; exact hj)).symm

end Spec.Counts
/-- C19 for the same variables given as sets of one integer, linear scales: the integers
of any number of factors and variables are added up, the probabilities multiplied, the
common conditions kept. -/
theorem C19_counts (F : Spec.Counts fmt ks cs cnt args) (hlin : ∀ a ∈ args, a.pscale.iscomplex = false) :
    ∃ r, product fmt args = .ok (some r) ∧ r.WF fmt ∧ Spec.Total ks cs cnt args r ∧
      r.pscale = .lin (args.map fun a => Spec.factor a.pscale).prod := by
  have hne : args ≠ [] := by rintro rfl; have := F.two; simp at this
  obtain ⟨hs, hp, hval⟩ := linearScale (args := args) F.wf hne hlin
  obtain ⟨r, h1, h2, h3, h4, h5, h6, h7, h8, h9, h10, h11⟩ := F.product_counts hs hp
  refine ⟨r, h1, h2, ⟨h3, h4, h5, h6, h7, h8, h9, ?_⟩, h10⟩
  intro j hj
  rw [PD.at, h10, hval _ (by simp) _ (h11 j hj)]
  congr 1
  rw [List.zipWith_map, List.zipWith_self]
  rfl

end

/-- p(x={m}, y={n} | z) with z having two values, on the scale `c`. -/
noncomputable def tallyPD (m n : ℤ) (c : ℝ) : PD :=
  ⟨['x', '=', '2', ',', 'y', '=', '2', '|', 'z'],
   [(['x'], ['x', '=', '2']), (['y'], ['y', '=', '2'])], [(['z'], ['z'])],
   ⟨[(['x'], .setint m), (['y'], .setint n), (['z'], .arr [2] [5, 6])],
    [(['x'], none), (['y'], none), (['z'], some 0)], 1, [2], [2], 2, [true, true, false], false⟩,
   ⟨[2], fun i => if i = [0] then 1 / 4 else 1 / 2⟩, .lin c⟩

/-- The hypotheses of `C19_counts` are met: three factors of two variables, on different
scales. -/
example : ∃ r, product (fun _ => ['2']) [tallyPD 1 2 1, tallyPD 3 4 2, tallyPD 5 6 3] = .ok (some r) ∧
    r.values ['x'] = some (.setint 9) ∧ r.values ['y'] = some (.setint 12) ∧ r.pscale = .lin 6 ∧
    r.at [1] = 3 / 4 := by
  have hst : ∀ c : ℝ, c = 1 ∨ c = 2 ∨ c = 3 → evalPscale (PScale.lin c).spec = .ok (.lin c) := by
    rintro c (rfl | rfl | rfl) <;> simp [PScale.spec, evalPscale]
  have hwf : ∀ (m n : ℤ) (c : ℝ), c = 1 ∨ c = 2 ∨ c = 3 → (tallyPD m n c).WF (fun _ => ['2']) :=
    fun m n c hc => PD.wf_of_check rfl rfl (hst c hc)
  obtain ⟨r, h1, _, h3, h4⟩ := C19_counts (fmt := fun _ => ['2']) (ks := [['x'], ['y']]) (cs := [['z']])
    (cnt := fun a k => match Dict.get? a.vals k with | some (.setint n) => n | _ => 0)
    (args := [tallyPD 1 2 1, tallyPD 3 4 2, tallyPD 5 6 3]) (by
      refine ⟨by simp, ?_, ?_, by simp, ?_, ?_, ?_, ?_, ?_, ?_, ?_⟩
      · simp only [List.mem_cons, List.not_mem_nil, or_false]
        rintro a (rfl | rfl | rfl) <;> exact hwf _ _ _ (by simp)
      · simp only [List.mem_cons, List.not_mem_nil, or_false]
        rintro a (rfl | rfl | rfl) <;> (show ∀ n ∈ [2], 0 < n; decide)
      · simp only [List.mem_cons, List.not_mem_nil, or_false]
        rintro a (rfl | rfl | rfl) <;> rfl
      · simp only [List.mem_cons, List.not_mem_nil, or_false]
        rintro a (rfl | rfl | rfl) k (rfl | rfl) <;> rfl
      · simp only [List.mem_cons, List.not_mem_nil, or_false]
        rintro a (rfl | rfl | rfl) <;> rfl
      · simp only [List.mem_cons, List.not_mem_nil, or_false]
        rintro a (rfl | rfl | rfl) b (rfl | rfl | rfl) <;> rfl
      · simp only [List.mem_cons, List.not_mem_nil, or_false]
        rintro a (rfl | rfl | rfl) b (rfl | rfl | rfl) k rfl <;> exact ⟨rfl, rfl⟩
      · simp only [List.mem_cons, List.not_mem_nil, or_false]
        rintro a (rfl | rfl | rfl) k rfl n h <;> exact absurd h (by simp [PD.values, tallyPD, Dict.get?, Val.flat])
      · intro k hk
        simp only [List.mem_cons, List.not_mem_nil, or_false] at hk
        rcases hk with rfl | rfl <;>
          exact entry_value (by decide) (by simp) (by simp) (by simp) (by simp) (by decide))
    (by
      simp only [List.mem_cons, List.not_mem_nil, or_false]
      rintro a (rfl | rfl | rfl) <;> rfl)
  refine ⟨r, h1, h3.count ['x'] (by simp), h3.count ['y'] (by simp), ?_, ?_⟩
  · rw [h4]; norm_num [tallyPD, Spec.factor]
  · rw [h3.entry [1] (by
      rw [h3.shape (tallyPD 1 2 1) (by simp)]
      exact mem_idx.mpr (.cons (by decide) .nil))]
    norm_num [tallyPD, PD.at, Spec.value, Spec.factor]

/-- p(x={1} | u=v). -/
noncomputable def givenSet (v : ℚ) : PD :=
  ⟨['x', '=', '2', '|', 'u', '=', '2'], [(['x'], ['x', '=', '2'])], [(['u'], ['u', '=', '2'])],
   ⟨[(['x'], .setint 1), (['u'], .scalar v)], [(['x'], none), (['u'], none)], 0, [], [], 1,
    [true, true], true⟩,
   ⟨[], fun _ => 1 / 4⟩, .lin 1⟩

/-- For sets of one integer the values of the conditions are not compared:
p(x={1}|u=3) p(x={1}|u=4) is p(x={2}|u=3). -/
theorem C20_counts_unchecked : (∀ v, (givenSet v).WF (fun _ => ['2'])) ∧
    (givenSet 3).values ['u'] ≠ (givenSet 4).values ['u'] ∧
    ∃ r, product (fun _ => ['2']) [givenSet 3, givenSet 4] = .ok (some r) ∧
      r.values ['x'] = some (.setint 2) ∧ r.values ['u'] = some (.scalar 3) := by
  refine ⟨fun v => PD.wf_of_check rfl rfl lin1_stable, by simp [PD.values, givenSet, Dict.get?, Val.flat], ?_⟩
  let Q : Arr := ⟨[], fun i => (1 / 4 : ℝ) * (1 / 4)⟩
  let r : PD := ⟨['x', '=', '2', '|', 'u', '=', '2'], [(['x'], ['x', '=', '2'])], [(['u'], ['u', '=', '2'])],
    ⟨[(['x'], .setint 2), (['u'], .scalar 3)], [(['x'], none), (['u'], none)], 0, [], [], 1,
      [true, true], true⟩, Q, .lin 1⟩
  have hok : product (fun _ => ['2']) [givenSet 3, givenSet 4] = .ok (some r) := by
    unfold product
    have hp := productPscale_one (givenSet 3) (givenSet 4) rfl rfl
    have hd : ¬ (List.flatMap (fun a : PD => a.marg.keys) [givenSet 3, givenSet 4]).Nodup := by
      show ¬ [['x'], ['x']].Nodup; decide
    have hu : unitSets [givenSet 3, givenSet 4] none none none = .ok (some [true]) := rfl
    simp only [hp, bind, Except.bind, hd, not_false_eq_true, if_true, hu]
    have hg : productFast (fun _ => ['2']) [givenSet 3, givenSet 4] (givenSet 3) (.lin 1) (some [true]) =
        pdInit (fun _ => ['2']) ['x', '=', '2', '|', 'u', '=', '2'] r.vals
          (some [(['x'], none), (['u'], none)]) Q (PScale.lin 1).spec := rfl
    rw [hg, pdInit_eval (mc := (r.marg, r.cond)) (dist := r.dist) (mc' := (r.marg, r.cond)) (p := .lin 1)
      rfl rfl rfl lin1_stable rfl]
    rfl
  exact ⟨r, hok, rfl, rfl⟩

end Probayes
