/-
C87: a process of one variable with a transition matrix is a Markov chain with that matrix.
-/
import Mathlib.LinearAlgebra.Matrix.Defs
import Mathlib.Data.Matrix.Mul
import Mathlib.Algebra.BigOperators.Fin
import Mathlib.MeasureTheory.Measure.Lebesgue.Basic
import Verif.Model.Markov
import Verif.Props.SP
import Verif.Props.RVCall
import Verif.Props.RFCall
import Verif.Props.RFStep

namespace Probayes

open MeasureTheory

/-! ### What is claimed -/

/-- A matrix as it is passed to `set_tran`: its rows. -/
def Spec.rows {n : ℕ} (M : Matrix (Fin n) (Fin n) ℝ) : List (List ℝ) := List.ofFn fun i => List.ofFn (M i)

/-- The columns are probabilities. -/
structure Spec.Stochastic {n : ℕ} (M : Matrix (Fin n) (Fin n) ℝ) : Prop where
  nonneg : ∀ i j, 0 ≤ M i j
  sum : ∀ j, ∑ i, M i j = 1

/-- A field of one variable whose values in increasing order are `val 0`, `val 1`, ..., with
the transition matrix `M` (and perhaps another one for the reverse direction), on a linear
scale of one, on which the probability of `val i` is `p i`; the field itself has no
transition, transition function or delta. -/
structure Spec.MarkovField {n : ℕ} (fmt : Val → Str) (F : RField) (v : Drawn) (val : Fin n → ℚ)
    (M : Matrix (Fin n) (Fin n) ℝ) (p : Fin n → ℝ) : Prop where
  good : Spec.GoodField fmt F
  only : F.vars = [v]
  tran : F.tran = .none
  tfun : F.tfun = .none
  delta : F.delta = none
  nodup : v.var.vset.Nodup
  mono : StrictMono val
  range : ∀ x, x ∈ v.var.vset ↔ ∃ i, val i = x
  matrix : v.var.tran = .matrix (Spec.rows M) ∨ ∃ r, v.var.tran = .pair (Spec.rows M) r
  scale : evalPscale v.var.pscale = .ok (.lin 1)
  prob : ∀ i, ∃ a, v.var.evalProb (.scalar (val i)) = .ok a ∧ a.shape = [] ∧ a.get [] = p i

/-- The distribution is that of the single value `y` of the variable given its value `x`, with
probability `q`. -/
structure Spec.OneGiven (name : Str) (d : PD) (y x : ℚ) (q : ℝ) : Prop where
  marg : d.marg.keys = [name ++ ['\'']]
  cond : d.cond.keys = [name]
  keys : d.keylist = [name ++ ['\''], name]
  succ : d.values (name ++ ['\'']) = some (.scalar y)
  pred : d.values name = some (.scalar x)
  shape : d.shape = []
  scale : d.pscale = .lin 1
  prob : d.prob.get [] = q

/-- The distribution is that of the single value `y` of the variable, with probability `q`. -/
structure Spec.One (name : Str) (d : PD) (y : ℚ) (q : ℝ) : Prop where
  marg : d.marg.keys = [name]
  cond : d.cond.keys = []
  keys : d.keylist = [name]
  val : d.values name = some (.scalar y)
  shape : d.shape = []
  scale : d.pscale = .lin 1
  prob : d.prob.get [] = q

variable {n : ℕ} {fmt : Val → Str} {F : RField} {v : Drawn} {val : Fin n → ℚ} {M : Matrix (Fin n) (Fin n) ℝ}
  {p : Fin n → ℝ} {arrays : Dict Str Val → Py Arr}

/-! ### The matrix as the code sees it -/

theorem vset_perm (H : Spec.MarkovField fmt F v val M p) : v.var.vset.Perm (List.ofFn val) := by
  rw [List.perm_ext_iff_of_nodup H.nodup (List.nodup_ofFn.mpr H.mono.injective)]
  intro x
  rw [H.range, List.mem_ofFn]

theorem rank_val (H : Spec.MarkovField fmt F v val M p) (i : Fin n) : Spec.rank v.var.vset (val i) = i := by
  rw [Spec.rank, (vset_perm H).countP_eq]
  refine countP_rank _ ?_ _ _ (by rw [List.getElem?_ofFn, dif_pos i.2])
  rw [List.pairwise_ofFn]
  exact fun a b h => H.mono h

theorem vset_length (H : Spec.MarkovField fmt F v val M p) : v.var.vset.length = (Spec.rows M).length := by
  rw [(vset_perm H).length_eq]; simp [Spec.rows]

theorem rows_square (M : Matrix (Fin n) (Fin n) ℝ) : isSquare (Spec.rows M) = true := by
  simp only [isSquare, Spec.rows, List.all_eq_true, List.mem_ofFn, List.length_ofFn]
  rintro r ⟨i, rfl⟩
  simp

theorem rows_column (M : Matrix (Fin n) (Fin n) ℝ) (j : Fin n) :
    Spec.IsColumn (Spec.rows M) j (List.ofFn fun i => M i j) := by
  refine ⟨by simp [Spec.rows], ?_⟩
  intro i hi
  have hi' : i < n := by simpa [Spec.rows] using hi
  simp [Spec.rows, List.getElem?_ofFn, hi', j.2]

theorem uses_rows (H : Spec.MarkovField fmt F v val M p) : Spec.Uses v.var false (Spec.rows M) := by
  rcases H.matrix with h | ⟨r, h⟩
  · exact .inl h
  · exact .inr (.inl ⟨r, h, rfl⟩)

theorem prefix_Iio (f : Fin n → ℝ) (j : Fin n) :
    Spec.prefixSum (List.ofFn f) j = ∑ z ∈ Finset.Iio j, f z := by
  rw [Spec.prefixSum, List.sum_take_ofFn]
  congr 1
  ext z
  simp only [Finset.mem_filter, Finset.mem_univ, true_and, Finset.mem_Iio, Fin.lt_def]

theorem prefix_Iic (f : Fin n → ℝ) (j : Fin n) :
    Spec.prefixSum (List.ofFn f) (j + 1) = ∑ z ∈ Finset.Iic j, f z := by
  rw [Spec.prefixSum, List.sum_take_ofFn]
  congr 1
  ext z
  simp only [Finset.mem_filter, Finset.mem_univ, true_and, Finset.mem_Iic, Fin.le_def, Nat.lt_succ_iff]

theorem prodPscale_one : prodPscale [PSpec.flt 1] none = .ok (some (.lin 1)) := by
  simp [prodPscale, PSpec.iscomplex, prodPscaleLin, evalPscale_one, probCoef, bind, Except.bind, pure, Except.pure]

theorem rfScale_one (H : Spec.MarkovField fmt F v val M p) : rfScale F.vars = .ok (.lin 1) := by
  rw [H.only]
  simp [rfScale, rfScales, H.scale, bind, Except.bind, pure, Except.pure, prodPscale_one, PScale.spec]

/-! ### One step -/

/-- A step draws the successor from the column of the predecessor. -/
theorem markov_step (H : Spec.MarkovField fmt F v val M p) (hM : Spec.Stochastic M) (i : Fin n)
    {pred : Dict Str Req} (hp : Spec.request pred v.name = .scalar (val i)) (w : SuccDraw) (h0 : 0 ≤ w.u)
    (h1 : w.u < 1) :
    ∃ d j, rfStep fmt F arrays pred none false w = .ok d ∧ d.WF fmt ∧
      Spec.OneGiven v.name d (val j) (val i) (M j i) ∧
      ∑ z ∈ Finset.Iio j, M z i ≤ w.u ∧ w.u < ∑ z ∈ Finset.Iic j, M z i := by
  have hx : v.var.evaluate (Spec.request pred v.name) v.r v.perm = .ok (.scalar (val i)) := by rw [hp]; rfl
  have hfrom : Spec.From F pred fun _ => val i := by
    intro u hu
    rw [H.only] at hu
    obtain rfl := List.mem_singleton.mp hu
    exact hx
  obtain ⟨full, laid, dims, e1, e2, e3, e4⟩ := preds_numbers H.good hfrom
  have hnone : rfStep fmt F arrays pred none false w = rfStep fmt F arrays pred (some (.unitInt 0)) false w := by
    simp only [rfStep, e1, e2, bind, Except.bind, rfDefaultSucc, H.delta, e4, if_true]
  have hfix : v.var.tran.fixed = true := by
    rcases H.matrix with h | ⟨r, h⟩ <;> rw [h] <;> rfl
  have hsingle := C72_single (arrays := arrays) (w := w) H.good H.only H.tran H.tfun H.delta hfix (rfScale_one H)
    (b := .lin 1) (by simp [PScale.spec, evalPscale_one]) H.scale hx (some 0) (by simp) false
  have hmem : val i ∈ v.var.vset := (H.range _).mpr ⟨i, rfl⟩
  have hcol : Spec.IsColumn (Spec.rows M) (Spec.rank v.var.vset (val i)) (List.ofFn fun z => M z i) := by
    rw [rank_val H]; exact rows_column M i
  obtain ⟨d, y, g1, g2, g3, g4, g5, g6, g7, g8, g9, g10, g11, g12, g13⟩ :=
    C61_sampled (H.good.good v (by simp [H.only])) H.nodup false (Spec.rows M) (uses_rows H) (rows_square M)
      (vset_length H) (.lin 1) H.scale (val i) hmem _ hcol
      (by intro y hy; rw [List.mem_ofFn] at hy; obtain ⟨z, rfl⟩ := hy; exact hM.nonneg _ _)
      (by rw [List.sum_ofFn]; exact hM.sum i) w.u h0 h1 (some (.unitInt 0)) (.inr rfl) (by simp) v.r v.perm w.r w.perm
  obtain ⟨j, rfl⟩ := (H.range y).mp g3
  rw [rank_val H] at g11 g12 g13
  rw [prefix_Iio] at g12
  rw [prefix_Iic] at g13
  refine ⟨d, j, ?_, g2, ⟨by rw [g4]; rfl, by rw [g5]; rfl, g6, g7, g8, g9, g10, ?_⟩, g12, g13⟩
  · rw [hnone]
    simp only [Option.map_some] at hsingle
    rw [hsingle, hp]
    exact g1
  · rw [List.getElem?_ofFn, dif_pos j.2] at g11
    simpa using g11

/-- The call at a value. -/
theorem markov_call (H : Spec.MarkovField fmt F v val M p) (j : Fin n) :
    ∃ e, rfCall fmt F.vars [(v.name, .scalar (val j))] = .ok e ∧ e.WF fmt ∧
      Spec.One v.name e (val j) (p j) := by
  obtain ⟨a, ha, hs, hg⟩ := H.prob j
  have hgood := H.good.good v (by simp [H.only])
  obtain ⟨d, d1, d2, d3, d4, d5, d6, d7, d8, d9, d10⟩ := build_one hgood (entry_distName hgood (.scalar (val j)))
    (.scalar (val j)) a hs v.var.pscale _ H.scale
  have hreq : Spec.request [(v.name, Req.scalar (val j))] v.name = .scalar (val j) := by
    simp [Spec.request, Dict.get?]
  have hcall : v.var.call fmt (Spec.request [(v.name, Req.scalar (val j))] v.name) v.r v.perm = .ok d := by
    rw [hreq]
    simp only [DRV.call, DRV.evaluate, ha, bind, Except.bind]
    exact d1
  obtain ⟨ps, h1, h2, h3⟩ := parts_of_calls (vs := [v]) (ds := [d]) (by simpa using hgood)
    (List.Forall₂.cons hcall .nil)
  rcases ps with _ | ⟨q, _ | ⟨q', ps⟩⟩
  · simp at h1
  · have hqv : q.v = v := by simpa using h1
    have hq := h3 q (by simp)
    have hqq : q.q = .scalar (val j) := by rw [← hq.req, hqv, hreq]
    have hqx : q.x = .scalar (val j) := by
      have := hq.eval
      rw [hqq] at this
      simpa [DRV.evaluate] using this.symm
    have hqa : q.a = a := by
      have := hq.prob
      rw [hqx, hqv, ha] at this
      simpa using this.symm
    have hqb : q.b = .lin 1 := by
      have := hq.scale
      rw [hqv, H.scale] at this
      simpa using this.symm
    obtain ⟨e, k1, k2, k3, k4, k5, k6, k7, k8, k9, k10, k11⟩ := rfCall_ok (ps := [q])
      (values := [(v.name, Req.scalar (val j))]) (by simp) (by simp) (by simp [Dict.keys])
      (by simp [Dict.keys, hqv]) (by simpa using hq) (by simp [hqx, VArg.sizes]) (s := .lin 1)
      (by simp [hqb, prodPscale_one, PScale.spec]) (by simp [PScale.spec, evalPscale_one])
    have hsh : shapeOf (named [q]) = [] := by simp [named, shapeOf, hqx, VArg.sizes]
    refine ⟨e, ?_, k2, ?_, by rw [k4]; rfl, ?_, ?_, by rw [k6, hsh], k5, ?_⟩
    · rw [H.only]; simpa [hqv] using k1
    · rw [k3]; simp [Dict.keys, hqv]
    · simpa [hqv] using k7
    · have := k8 q (by simp)
      rw [hqv, hqx] at this
      exact this
    · rw [(k11 [] (by rw [hsh, mem_idx]; exact .nil) [[]] (.cons (by simp [Picks, hqx]) .nil)).2 q rfl [] rfl, hqa, hg]
  · simp at h1

/-- The successor of a proposal as it is passed on. -/
theorem succReqs_one (H : Spec.MarkovField fmt F v val M p) {d : PD} {y x : ℚ} {q : ℝ}
    (h : Spec.OneGiven v.name d y x q) : succReqs d = .ok [(v.name, .scalar y)] := by
  have hv := h.keys
  have hs := h.succ
  rcases hd : d.dist.vals with _ | ⟨⟨k1, w1⟩, _ | ⟨⟨k2, w2⟩, _ | ⟨e, l⟩⟩⟩ <;>
    simp only [PD.keylist, hd, Dict.keys_nil, Dict.keys_cons, List.cons.injEq, reduceCtorEq, and_false, and_true] at hv
  obtain ⟨rfl, rfl⟩ := hv
  have hpl := H.good.plain v (by simp [H.only])
  have hw : w1 = .scalar y := by
    rw [PD.values] at hs
    simp only [hd, Dict.get?, if_true, Option.map_some, Option.some.injEq] at hs
    cases w1 with
    | arr s l => cases s <;> simp [Val.flat] at hs
    | _ => simp_all [Val.flat]
  have hne : v.name ≠ [] := (H.good.good v (by simp [H.only])).ne
  subst hw
  have hl : ∃ c, lastChar v.name = .ok c ∧ c ≠ '\'' := by
    unfold lastChar
    rcases hg : v.name.getLast? with _ | c
    · simp at hg; exact absurd hg hne
    · exact ⟨c, rfl, fun hc => hpl (by rw [hg, hc])⟩
  obtain ⟨c, hl1, hl2⟩ := hl
  have hl' : lastChar (v.name ++ ['\'']) = .ok '\'' := by simp [lastChar]
  simp only [succReqs, getSuffixed, PD.vals, hd, List.foldlM, hl', hl1, hl2, bind, Except.bind, pure, Except.pure,
    Dict.set, if_true, if_false, List.dropLast_concat, List.map, Val.asReq]

/-! ### The samples -/

/-- The sample is a move from `val i` to `val j`, proposed with probability `M j i`; what is
kept is the distribution of `val j`, with probability `p j`. -/
structure Spec.Visit (fmt : Val → Str) (name : Str) (val : Fin n → ℚ) (M : Matrix (Fin n) (Fin n) ℝ) (p : Fin n → ℝ)
    (x : Sample PD) (i j : Fin n) : Prop where
  q : ∃ d, x.q = some d ∧ d.WF fmt ∧ Spec.OneGiven name d (val j) (val i) (M j i)
  p : ∃ e, x.p = some e ∧ x.v = some e ∧ e.WF fmt ∧ Spec.One name e (val j) (p j)
  r : x.r = none
  u : x.u = none

/-- The draw falls in the interval of `j` among those that the probabilities of the column
`i` divide the unit interval into. -/
def Spec.Falls (M : Matrix (Fin n) (Fin n) ℝ) (i j : Fin n) (u : ℝ) : Prop :=
  ∑ z ∈ Finset.Iio j, M z i ≤ u ∧ u < ∑ z ∈ Finset.Iic j, M z i

/-- The sampler stands at a value: it has just started from it or has last moved to it. -/
def Spec.StandsAt (name : Str) (start : Dict Str Req) (last : Option (OPQR PD)) (x : ℚ) : Prop :=
  match last with
  | none => start = [(name, .scalar x)]
  | some l => ∃ d y q, l.q = some d ∧ Spec.OneGiven name d x y q

theorem markov_next (H : Spec.MarkovField fmt F v val M p) (hM : Spec.Stochastic M) (i : Fin n)
    {start : Dict Str Req} {last : Option (OPQR PD)} (hl : Spec.StandsAt v.name start last (val i)) (ω : MDraw)
    (h0 : 0 ≤ ω.w.u) (h1 : ω.w.u < 1) (st : Unit) :
    ∃ l x j, nextCore (matrixProc fmt F arrays start) last ω st = (st, some l, .ok (.sample x)) ∧
      Spec.StandsAt v.name start (some l) (val j) ∧ Spec.Visit fmt v.name val M p x i j ∧ Spec.Falls M i j ω.w.u := by
  have hreq : ∀ y, Spec.request [(v.name, Req.scalar y)] v.name = .scalar y := by
    intro y; simp [Spec.request, Dict.get?]
  obtain ⟨d, j, g1, g0, g2, g3⟩ := markov_step (arrays := arrays) H hM i (hreq (val i)) ω.w h0 h1
  obtain ⟨e, e1, e0, e2⟩ := markov_call H j
  have hcall : (matrixOps fmt F arrays start).call d ω = .ok e := by
    simp only [matrixOps, succReqs_one H g2, bind, Except.bind]
    exact e1
  cases last with
  | none =>
    have hs : start = [(v.name, .scalar (val i))] := hl
    refine ⟨⟨none, some e, some d, none⟩, ⟨none, some e, some d, none, none, none, none, some e⟩, j, ?_,
      ⟨d, _, _, rfl, g2⟩, ⟨⟨d, rfl, g0, g2⟩, ⟨e, rfl, rfl, e0, e2⟩, rfl, rfl⟩, g3⟩
    have hstep : (matrixOps fmt F arrays start).stepArg ω st = (st, .ok d) := by
      simp only [matrixOps, hs, g1]
    simp only [nextCore, matrixProc, Bool.false_eq_true, if_false, sampleTran, hstep, sampleFinish, hcall, bind,
      Except.bind, pure, Except.pure, judge, evalScores, evalUpdate]
    rfl
  | some l =>
    obtain ⟨d0, y0, q0, hq, hd⟩ := hl
    refine ⟨⟨l.p, some e, some d, none⟩, ⟨l.p, some e, some d, none, none, none, none, some e⟩, j, ?_,
      ⟨d, _, _, rfl, g2⟩, ⟨⟨d, rfl, g0, g2⟩, ⟨e, rfl, rfl, e0, e2⟩, rfl, rfl⟩, g3⟩
    have hstep : (matrixOps fmt F arrays start).stepFrom d0 ω st = (st, .ok d) := by
      simp only [matrixOps, succReqs_one H hd, bind, Except.bind, g1]
    simp only [nextCore, matrixProc, Bool.false_eq_true, if_false, sampleTran, hq, hstep, sampleFinish, hcall, bind,
      Except.bind, pure, Except.pure, judge, evalScores, evalUpdate]
    rfl

theorem markov_drain (H : Spec.MarkovField fmt F v val M p) (hM : Spec.Stochastic M) {start : Dict Str Req}
    {stop : Option ℤ} {g : ℕ} : ∀ (k : ℕ) (S : SPState Unit PD) (l : Option (OPQR PD)) (c : ℕ) (i : Fin n) (ω : ℕ → MDraw),
    Live S g stop l c → Spec.StandsAt v.name start l (val i) → (∀ m, stop = some m → ((c + k : ℕ) : ℤ) ≤ m) →
    (∀ t, 0 ≤ (ω t).w.u ∧ (ω t).w.u < 1) →
    ∃ S', ∃ xs : List (Sample PD), ∃ y : ℕ → Fin n, drain (matrixProc fmt F arrays start) g ω k S = (S', xs.map .sample, none) ∧
      xs.length = k ∧ y 0 = i ∧ ∀ t x, xs[t]? = some x →
        Spec.Visit fmt v.name val M p x (y t) (y (t + 1)) ∧ Spec.Falls M (y t) (y (t + 1)) (ω t).w.u
  | 0, S, l, c, i, ω, _, _, _, _ => ⟨S, [], fun _ => i, rfl, rfl, rfl, by simp⟩
  | k + 1, S, l, c, i, ω, hl, hs, hc, hu => by
    obtain ⟨l', x, j, h1, h2, h3, h4⟩ := markov_next (arrays := arrays) H hM i hs (ω 0) (hu 0).1 (hu 0).2 S.st
    obtain ⟨S', hS', hl', _, _⟩ := genNext_live _ S g stop l c (ω 0) hl
      (fun m hm => by have := hc m hm; push_cast at this; omega) (.sample x) (by rw [h1])
    rw [h1] at hl'
    obtain ⟨S'', xs, y, e1, e2, e3, e4⟩ := markov_drain H hM k S' (some l') (c + 1) j (fun t => ω (t + 1)) hl' h2
      (fun m hm => by have := hc m hm; push_cast at this ⊢; omega) (fun t => hu (t + 1))
    refine ⟨S'', x :: xs, fun t => if t = 0 then i else y (t - 1), by simp [drain, hS', e1], by simp [e2], rfl, ?_⟩
    intro t x' hx'
    rcases t with _ | t
    · simp only [List.getElem?_cons_zero, Option.some.injEq] at hx'
      subst hx'
      simpa [e3] using ⟨h3, h4⟩
    · simpa using e4 t x' (by simpa using hx')

/-- C87: started at a value of the variable, a sampler yields as many samples as are asked
for (up to its stop), which are the moves of a path through the values: each draw decides on
the next value by the interval it falls in, and the sample has the value moved from, the
value moved to, the probability of the move and the probability of the value. -/
theorem C87_chain (H : Spec.MarkovField fmt F v val M p) (hM : Spec.Stochastic M) (S : SPState Unit PD)
    (stop : Option ℤ) (k : ℕ) (hk : ∀ m, stop = some m → (k : ℤ) ≤ m) (i : Fin n) (ω : ℕ → MDraw)
    (hu : ∀ t, 0 ≤ (ω t).w.u ∧ (ω t).w.u < 1) :
    ∃ S', ∃ xs : List (Sample PD), ∃ y : ℕ → Fin n,
      drain (matrixProc fmt F arrays [(v.name, .scalar (val i))]) S.made ω k (mkSampler S stop) =
        (S', xs.map .sample, none) ∧
      xs.length = k ∧ y 0 = i ∧ ∀ t x, xs[t]? = some x →
        Spec.Visit fmt v.name val M p x (y t) (y (t + 1)) ∧ Spec.Falls M (y t) (y (t + 1)) (ω t).w.u :=
  markov_drain H hM k _ none 0 i ω (live_mkSampler S stop) rfl (by simpa using hk) hu

/-! ### Their probabilities -/

/-- The draws of a sampler of which `k` samples are taken; those for thresholds, and for
values asked for at random, are not used. -/
def Spec.draws {k : ℕ} (u : Fin k → ℝ) (t : ℕ) : MDraw := ⟨⟨0, [], if h : t < k then u ⟨t, h⟩ else 0⟩, 0⟩

/-- The `k` samples of a new sampler started at `val i` move to `val (y 0)`, `val (y 1)`, ... -/
def Spec.Follows (fmt : Val → Str) (F : RField) (arrays : Dict Str Val → Py Arr) (name : Str) (val : Fin n → ℚ)
    (i : Fin n) {k : ℕ} (y : Fin k → Fin n) (u : Fin k → ℝ) : Prop :=
  ∃ S', ∃ xs : List (Sample PD), drain (matrixProc fmt F arrays [(name, .scalar (val i))]) 0 (Spec.draws u) k
      (mkSampler (SPState.init PD ()) none) = (S', xs.map .sample, none) ∧
    ∀ t : Fin k, ∃ x d, xs[(t : ℕ)]? = some x ∧ x.q = some d ∧
      d.values (name ++ ['\'']) = some (.scalar (val (y t)))

theorem falls_unique (hM : Spec.Stochastic M) {i j j' : Fin n} {u : ℝ} (h : Spec.Falls M i j u) (h' : Spec.Falls M i j' u) :
    j = j' := by
  have key : ∀ j j' : Fin n, j < j' → ∑ z ∈ Finset.Iic j, M z i ≤ ∑ z ∈ Finset.Iio j', M z i := by
    intro j j' hj
    refine Finset.sum_le_sum_of_subset_of_nonneg ?_ fun z _ _ => hM.nonneg z i
    intro z hz
    rw [Finset.mem_Iic] at hz
    rw [Finset.mem_Iio]
    exact lt_of_le_of_lt hz hj
  rcases lt_trichotomy j j' with hj | hj | hj
  · exact absurd (lt_of_lt_of_le h.2 ((key _ _ hj).trans h'.1)) (lt_irrefl _)
  · exact hj
  · exact absurd (lt_of_lt_of_le h'.2 ((key _ _ hj).trans h.1)) (lt_irrefl _)

theorem draws_mem {k : ℕ} {u : Fin k → ℝ} (hu : ∀ t, u t ∈ Set.Ico (0 : ℝ) 1) (t : ℕ) :
    0 ≤ (Spec.draws u t).w.u ∧ (Spec.draws u t).w.u < 1 := by
  unfold Spec.draws
  by_cases h : t < k
  · simp only [dif_pos h]
    exact hu ⟨t, h⟩
  · simp only [dif_neg h]
    norm_num

theorem moves_iff (H : Spec.MarkovField fmt F v val M p) (hM : Spec.Stochastic M) (i : Fin n) {k : ℕ}
    (y : Fin k → Fin n) (u : Fin k → ℝ) (hu : ∀ t, u t ∈ Set.Ico (0 : ℝ) 1) :
    Spec.Follows fmt F arrays v.name val i y u ↔
      ∀ t : Fin k, Spec.Falls M ((Fin.cons i y : Fin (k + 1) → Fin n) t.castSucc) (y t) (u t) := by
  obtain ⟨S', xs, y0, e1, e2, e3, e4⟩ := C87_chain (arrays := arrays) H hM (SPState.init PD ()) none k (by simp) i
    (Spec.draws u) (draws_mem hu)
  have hdr : ∀ t : Fin k, (Spec.draws u t).w.u = u t := fun t => by simp [Spec.draws]
  have hx : ∀ t : Fin k, ∃ x, xs[(t : ℕ)]? = some x := fun t =>
    ⟨_, List.getElem?_eq_getElem (by rw [e2]; exact t.2)⟩
  have hfall : ∀ t : Fin k, Spec.Falls M (y0 t) (y0 (t + 1)) (u t) := by
    intro t
    obtain ⟨x, hx⟩ := hx t
    rw [← hdr t]
    exact (e4 t x hx).2
  have hmoves : Spec.Follows fmt F arrays v.name val i y u ↔ ∀ t : Fin k, y t = y0 (t + 1) := by
    constructor
    · rintro ⟨S'', xs', f1, f2⟩ t
      have hxs : xs' = xs := by
        have : xs'.map Out.sample = xs.map Out.sample := by
          have := f1.symm.trans e1
          simpa using congrArg (fun q => q.2.1) this
        exact List.map_injective_iff.mpr (fun a b h => by injection h) this
      subst hxs
      obtain ⟨x, d, g1, g2, g3⟩ := f2 t
      obtain ⟨d', g4, g5⟩ := (e4 t x g1).1.q
      rw [g2] at g4
      obtain rfl := Option.some.inj g4
      rw [g5.2.succ] at g3
      simp only [Option.some.injEq, Val.scalar.injEq] at g3
      exact (H.mono.injective g3).symm
    · intro h
      refine ⟨S', xs, e1, fun t => ?_⟩
      obtain ⟨x, hx⟩ := hx t
      obtain ⟨d, g4, g5⟩ := (e4 t x hx).1.q
      exact ⟨x, d, hx, g4, by rw [h t]; exact g5.2.succ⟩
  have hcons : (∀ t : Fin k, y t = y0 (t + 1)) →
      ∀ t : Fin (k + 1), (Fin.cons i y : Fin (k + 1) → Fin n) t = y0 t := by
    intro h t
    refine Fin.cases ?_ (fun t => ?_) t
    · simpa using e3.symm
    · simpa using h t
  rw [hmoves]
  constructor
  · intro h t
    rw [hcons h, h t]
    exact hfall t
  · intro h t
    obtain ⟨t, ht⟩ := t
    induction t with
    | zero =>
      have h1 := h ⟨0, ht⟩
      have h2 := hfall ⟨0, ht⟩
      have : (⟨0, ht⟩ : Fin k).castSucc = 0 := rfl
      rw [this, Fin.cons_zero, ← e3] at h1
      exact falls_unique hM h1 h2
    | succ t ih =>
      have h1 := h ⟨t + 1, ht⟩
      have h2 := hfall ⟨t + 1, ht⟩
      have : (⟨t + 1, ht⟩ : Fin k).castSucc = (⟨t, by omega⟩ : Fin k).succ := rfl
      rw [this, Fin.cons_succ, ih] at h1
      exact falls_unique hM h1 h2

theorem Iic_eq (f : Fin n → ℝ) (j : Fin n) : ∑ z ∈ Finset.Iic j, f z = ∑ z ∈ Finset.Iio j, f z + f j := by
  rw [← Finset.Iio_insert, Finset.sum_insert (by simp), add_comm]

theorem falls_mem (hM : Spec.Stochastic M) {i j : Fin n} {u : ℝ} (h : Spec.Falls M i j u) : u ∈ Set.Ico (0 : ℝ) 1 := by
  refine ⟨le_trans (Finset.sum_nonneg fun z _ => hM.nonneg z i) h.1, lt_of_lt_of_le h.2 ?_⟩
  rw [← hM.sum i]
  exact Finset.sum_le_sum_of_subset_of_nonneg (Finset.subset_univ _) fun z _ _ => hM.nonneg z i

theorem moves_box (H : Spec.MarkovField fmt F v val M p) (hM : Spec.Stochastic M) (i : Fin n) {k : ℕ}
    (y : Fin k → Fin n) :
    {u : Fin k → ℝ | (∀ t, u t ∈ Set.Ico (0 : ℝ) 1) ∧ Spec.Follows fmt F arrays v.name val i y u} =
      Set.univ.pi fun t => Set.Ico (∑ z ∈ Finset.Iio (y t), M z ((Fin.cons i y : Fin (k + 1) → Fin n) t.castSucc))
        (∑ z ∈ Finset.Iic (y t), M z ((Fin.cons i y : Fin (k + 1) → Fin n) t.castSucc)) := by
  ext u
  simp only [Set.mem_setOf_eq, Set.mem_pi, Set.mem_univ, true_implies]
  constructor
  · rintro ⟨h1, h2⟩
    exact (moves_iff H hM i y u h1).mp h2
  · intro h
    have h1 : ∀ t, u t ∈ Set.Ico (0 : ℝ) 1 := fun t => falls_mem hM (h t)
    exact ⟨h1, (moves_iff H hM i y u h1).mpr h⟩

/-- C87: a path is taken with the product of its transition probabilities. -/
theorem C87_path (H : Spec.MarkovField fmt F v val M p) (hM : Spec.Stochastic M) (i : Fin n) {k : ℕ}
    (y : Fin k → Fin n) :
    volume {u : Fin k → ℝ | (∀ t, u t ∈ Set.Ico (0 : ℝ) 1) ∧ Spec.Follows fmt F arrays v.name val i y u} =
      ENNReal.ofReal (∏ t : Fin k, M (y t) ((Fin.cons i y : Fin (k + 1) → Fin n) t.castSucc)) := by
  rw [moves_box H hM, volume_pi_pi, ENNReal.ofReal_prod_of_nonneg fun t _ => hM.nonneg _ _]
  refine Finset.prod_congr rfl fun t _ => ?_
  rw [Real.volume_Ico, Iic_eq]
  congr 1
  ring

theorem sum_paths (M : Matrix (Fin n) (Fin n) ℝ) (z : Fin n) : ∀ (k : ℕ) (i : Fin n),
    ∑ y : Fin k → Fin n, (if (Fin.cons i y : Fin (k + 1) → Fin n) (Fin.last k) = z then
      ∏ t : Fin k, M (y t) ((Fin.cons i y : Fin (k + 1) → Fin n) t.castSucc) else 0) = (M ^ k) z i
  | 0, i => by
    rw [Fintype.sum_unique, pow_zero, Matrix.one_apply]
    have : (Fin.last 0) = 0 := rfl
    simp only [this, Fin.cons_zero, Finset.univ_eq_empty, Finset.prod_empty, eq_comm]
  | k + 1, i => by
    rw [← (Fin.consEquiv fun _ => Fin n).sum_comp, Fintype.sum_prod_type, pow_succ, Matrix.mul_apply]
    refine Finset.sum_congr rfl fun a _ => ?_
    rw [← sum_paths M z k a, Finset.sum_mul]
    refine Finset.sum_congr rfl fun y _ => ?_
    have h1 : (Fin.cons i ((Fin.consEquiv fun _ => Fin n) (a, y)) : Fin (k + 2) → Fin n) (Fin.last (k + 1)) =
        (Fin.cons a y : Fin (k + 1) → Fin n) (Fin.last k) := by
      rw [← Fin.succ_last, Fin.cons_succ]; rfl
    rw [h1]
    split_ifs with h
    · rw [Fin.prod_univ_succ, mul_comm]
      rfl
    · simp

/-- The last of `k + 1` samples of a new sampler started at `val i` moves to `val z`. -/
def Spec.EndsAt (fmt : Val → Str) (F : RField) (arrays : Dict Str Val → Py Arr) (name : Str) (val : Fin n → ℚ)
    (i : Fin n) {k : ℕ} (z : Fin n) (u : Fin (k + 1) → ℝ) : Prop :=
  ∃ S', ∃ xs : List (Sample PD), drain (matrixProc fmt F arrays [(name, .scalar (val i))]) 0 (Spec.draws u) (k + 1)
      (mkSampler (SPState.init PD ()) none) = (S', xs.map .sample, none) ∧
    ∃ x d, xs[k]? = some x ∧ x.q = some d ∧ d.values (name ++ ['\'']) = some (.scalar (val z))

/-- C87: the law of the value after `k + 1` samples is given by the power of the matrix. -/
theorem C87_law (H : Spec.MarkovField fmt F v val M p) (hM : Spec.Stochastic M) (i z : Fin n) (k : ℕ) :
    volume {u : Fin (k + 1) → ℝ | (∀ t, u t ∈ Set.Ico (0 : ℝ) 1) ∧ Spec.EndsAt fmt F arrays v.name val i z u} =
      ENNReal.ofReal ((M ^ (k + 1)) z i) := by
  have hset : {u : Fin (k + 1) → ℝ | (∀ t, u t ∈ Set.Ico (0 : ℝ) 1) ∧ Spec.EndsAt fmt F arrays v.name val i z u} =
      ⋃ y ∈ (Finset.univ.filter fun y : Fin (k + 1) → Fin n => y (Fin.last k) = z),
        {u : Fin (k + 1) → ℝ | (∀ t, u t ∈ Set.Ico (0 : ℝ) 1) ∧ Spec.Follows fmt F arrays v.name val i y u} := by
    ext u
    simp only [Set.mem_setOf_eq, Set.mem_iUnion, Finset.mem_filter, Finset.mem_univ, true_and, exists_prop]
    constructor
    · rintro ⟨hu, S', xs, f1, x, d, f2, f3, f4⟩
      obtain ⟨S'', xs', y0, e1, e2, e3, e4⟩ := C87_chain (arrays := arrays) H hM (SPState.init PD ()) none (k + 1)
        (by simp) i (Spec.draws u) (draws_mem hu)
      have hxs : xs' = xs := by
        have : xs'.map Out.sample = xs.map Out.sample := by
          have := e1.symm.trans f1
          simpa using congrArg (fun q => q.2.1) this
        exact List.map_injective_iff.mpr (fun a b h => by injection h) this
      subst hxs
      have hval : ∀ t : Fin (k + 1), ∃ x d, xs'[(t : ℕ)]? = some x ∧ x.q = some d ∧
          d.values (v.name ++ ['\'']) = some (.scalar (val (y0 (t + 1)))) := by
        intro t
        have hx := List.getElem?_eq_getElem (l := xs') (i := t) (by rw [e2]; exact t.2)
        obtain ⟨d, g4, g5⟩ := (e4 t _ hx).1.q
        exact ⟨_, d, hx, g4, g5.2.succ⟩
      refine ⟨fun t => y0 (t + 1), ?_, hu, S', xs', f1, hval⟩
      obtain ⟨x', d', g1, g2, g3⟩ := hval (Fin.last k)
      simp only [Fin.val_last] at g1 g3 ⊢
      rw [f2] at g1
      obtain rfl := Option.some.inj g1
      rw [f3] at g2
      obtain rfl := Option.some.inj g2
      rw [f4] at g3
      simp only [Option.some.injEq, Val.scalar.injEq] at g3
      exact (H.mono.injective g3).symm
    · rintro ⟨y, hy, hu, S', xs, f1, f2⟩
      obtain ⟨x, d, g1, g2, g3⟩ := f2 (Fin.last k)
      rw [hy] at g3
      exact ⟨hu, S', xs, f1, x, d, g1, g2, g3⟩
  have hdisj : ((Finset.univ.filter fun y : Fin (k + 1) → Fin n => y (Fin.last k) = z) : Set (Fin (k + 1) → Fin n)).PairwiseDisjoint
      fun y => {u : Fin (k + 1) → ℝ | (∀ t, u t ∈ Set.Ico (0 : ℝ) 1) ∧ Spec.Follows fmt F arrays v.name val i y u} := by
    intro y _ y' _ hne
    refine Set.disjoint_left.mpr ?_
    rintro u ⟨hu, S1, xs, f1, f2⟩ ⟨_, S2, xs', f1', f2'⟩
    apply hne
    funext t
    have hxs : xs' = xs := by
      have : xs'.map Out.sample = xs.map Out.sample := by
        have := f1'.symm.trans f1
        simpa using congrArg (fun q => q.2.1) this
      exact List.map_injective_iff.mpr (fun a b h => by injection h) this
    subst hxs
    obtain ⟨x, d, g1, g2, g3⟩ := f2 t
    obtain ⟨x', d', g1', g2', g3'⟩ := f2' t
    rw [g1] at g1'
    obtain rfl := Option.some.inj g1'
    rw [g2] at g2'
    obtain rfl := Option.some.inj g2'
    rw [g3] at g3'
    simp only [Option.some.injEq, Val.scalar.injEq] at g3'
    exact H.mono.injective g3'
  rw [hset, measure_biUnion_finset hdisj fun y _ => by
    rw [moves_box H hM]
    exact MeasurableSet.univ_pi fun t => measurableSet_Ico]
  simp only [C87_path H hM]
  rw [← ENNReal.ofReal_sum_of_nonneg fun y _ => Finset.prod_nonneg fun t _ => hM.nonneg _ _, ← sum_paths M z,
    Finset.sum_filter]
  congr 1

/-- C87: a law that the matrix keeps is kept by the samples. -/
theorem C87_keeps (H : Spec.MarkovField fmt F v val M p) (hM : Spec.Stochastic M) (π : Fin n → ℝ)
    (hpos : ∀ i, 0 ≤ π i) (hπ : M.mulVec π = π) (z : Fin n) (k : ℕ) :
    ∑ i, ENNReal.ofReal (π i) * volume {u : Fin (k + 1) → ℝ | (∀ t, u t ∈ Set.Ico (0 : ℝ) 1) ∧
      Spec.EndsAt fmt F arrays v.name val i z u} = ENNReal.ofReal (π z) := by
  have hk : ∀ k, (M ^ k).mulVec π = π := by
    intro k
    induction k with
    | zero => simp
    | succ k ih => rw [pow_succ, ← Matrix.mulVec_mulVec, hπ, ih]
  have hnn : ∀ k i j, 0 ≤ (M ^ k) i j := by
    intro k
    induction k with
    | zero => intro i j; rw [pow_zero, Matrix.one_apply]; split_ifs <;> norm_num
    | succ k ih =>
      intro i j
      rw [pow_succ, Matrix.mul_apply]
      exact Finset.sum_nonneg fun z _ => mul_nonneg (ih _ _) (hM.nonneg _ _)
  simp only [C87_law H hM, ← ENNReal.ofReal_mul (hpos _)]
  rw [← ENNReal.ofReal_sum_of_nonneg fun i _ => mul_nonneg (hpos i) (hnn _ _ _)]
  congr 1
  have := congrFun (hk (k + 1)) z
  rw [Matrix.mulVec, dotProduct] at this
  rw [← this]
  exact Finset.sum_congr rfl fun i _ => mul_comm _ _

/-- C87: what a proposal hands on.  Whatever stands before and after the successors of a
proposal, each of them is asked for by the name of its variable in the step that follows:
a number as that number, an array as its values in their order. -/
theorem C87_handed_on {d : PD} {before succ after : Dict Str Val} (hd : d.vals = before ++ Spec.primed succ ++ after)
    (hb : ∀ kv ∈ before, Spec.Plain kv.1) (ha : ∀ kv ∈ after, Spec.Plain kv.1) (hs : succ.keys.Nodup) :
    ∃ r, succReqs d = .ok r ∧ r.keys = succ.keys ∧
      (∀ k x, (k, Val.scalar x) ∈ succ → (k, Req.scalar x) ∈ r) ∧
      ∀ k s xs, (k, Val.arr s xs) ∈ succ → (k, Req.array xs) ∈ r := by
  have h : getSuffixed d.vals = .ok succ := by
    have h1 := C51_getSuffixed before succ hb hs
    unfold getSuffixed at h1 ⊢
    rw [hd, List.foldlM_append, h1]
    have h2 := getSuffixed_plain after ha succ []
    rw [List.append_nil] at h2
    exact h2
  refine ⟨_, by simp only [succReqs, h, bind, Except.bind, pure, Except.pure]; rfl, ?_, ?_, ?_⟩
  · simp [Dict.keys, Function.comp_def]
  · intro k x hx
    exact List.mem_map.mpr ⟨_, hx, rfl⟩
  · intro k s xs hx
    exact List.mem_map.mpr ⟨_, hx, rfl⟩

/-- Non-vacuity: an array of successors before its predecessors. -/
example (r : Dist)
    (hr : r.vals = [(['x', '\''], .arr [2] [5, 4]), (['x'], .arr [2] [1, 2])]) {d : PD} (hd : d.dist = r) :
    succReqs d = .ok [(['x'], .array [5, 4])] := by
  obtain ⟨l, h1, h2, _, h4⟩ := C87_handed_on (d := d) (before := []) (succ := [(['x'], .arr [2] [5, 4])])
    (after := [(['x'], .arr [2] [1, 2])]) (by rw [PD.vals, hd, hr]; rfl) (by simp) (by simp [Spec.Plain]) (by simp)
  have h5 := h4 ['x'] [2] [5, 4] (by simp)
  rw [h1]
  rcases l with _ | ⟨⟨k, v⟩, _ | ⟨e, l⟩⟩ <;> simp_all

end Probayes
