/-
C91: a probability set to a distribution object.
-/
import Verif.Model.DistObj
import Verif.Props.ProbObj
import Verif.Lemmas.PDInit

namespace Probayes

variable {V : Type}

/-! ### Specification -/

/-- The names the library has for its functions. -/
def Spec.libraryNames : List Str :=
  ["pdf", "logpdf", "pmf", "logpmf", "cdf", "logcdf", "ppf", "rvs", "sf", "logsf", "isf", "moment", "stats",
    "expect", "entropy", "fit", "median", "mean", "var", "std", "interval"].map String.toList

/-- `f` is the function `name` of the distribution `d`. -/
def Spec.HasFn (d : DistObj V) (name : String) (f : Meth V) : Prop := d.meths.get? name.toList = some f

/-- `f` gives the density of `d`, or its logarithm: for continuous distributions (those
with `pdf`) and for others. -/
inductive Spec.DensityOf (d : DistObj V) : Bool → Meth V → Prop
  | pdf (f : Meth V) : Spec.HasFn d "pdf" f → DensityOf d false f
  | logpdf (f g : Meth V) : Spec.HasFn d "pdf" g → Spec.HasFn d "logpdf" f → DensityOf d true f
  | pmf (f : Meth V) : (∀ g, ¬ Spec.HasFn d "pdf" g) → Spec.HasFn d "pmf" f → DensityOf d false f
  | logpmf (f : Meth V) : (∀ g, ¬ Spec.HasFn d "pdf" g) → Spec.HasFn d "logpmf" f → DensityOf d true f

/-- A scale of logarithms. -/
def Spec.Logarithmic : PScale → Bool
  | .lin _ => false
  | .log _ _ => true

/-- The keywords `{**a, **b}`. -/
def Spec.both (a b : Dict Str V) : Dict Str V := b.foldl (fun acc kv => acc.set kv.1 kv.2) a

/-- Arguments that are not a single dictionary (which would stand for keywords). -/
def Spec.Positional (args : List (PArg V)) : Prop := ∀ d, args ≠ [.dict d]

/-! ### Lemmas -/

theorem prun_append (s : PState V) (l l' : List (PGiven V × PSpec)) (r : PState V)
    (h : s.run (l ++ l') = .ok r) : ∃ m, s.run l = .ok m ∧ m.run l' = .ok r := by
  induction l generalizing s with
  | nil => exact ⟨s, rfl, h⟩
  | cons o l ih =>
    obtain ⟨g, ps⟩ := o
    simp only [List.cons_append, PState.run, bind, Except.bind] at h ⊢
    cases hs : s.setProb g ps with
    | error e => rw [hs] at h; cases h
    | ok a => rw [hs] at h; exact ih _ h

theorem run_last (s : PState V) (l : List (PGiven V × PSpec)) (g : PGiven V) (ps : PSpec) (r : PState V)
    (h : s.run (l ++ [(g, ps)]) = .ok r) : ∃ m, s.run l = .ok m ∧ m.setProb g ps = .ok r := by
  obtain ⟨m, hm, hr⟩ := prun_append s l _ r h
  refine ⟨m, hm, ?_⟩
  simp only [PState.run, bind, Except.bind] at hr
  cases hs : m.setProb g ps with
  | error e => rw [hs] at hr; cases hr
  | ok a => rw [hs] at hr; exact hr

theorem fix_get (d : DistObj V) (own : Call V) (L : List Str) : ∀ p : Dict Str (Fixed V),
    (L.mapM fun m => match d.meths.get? m with
      | some f => (Except.ok (m, ⟨f, own⟩) : Py (Str × Fixed V))
      | none => .error .attribute) = .ok p →
    ∀ m, p.get? m = if m ∈ L then (d.meths.get? m).map (fun f => ⟨f, own⟩) else none := by
  induction L with
  | nil => intro p h m; cases h; rfl
  | cons a L ih =>
    intro p h m
    rw [List.mapM_cons] at h
    rcases ha : d.meths.get? a with _ | f
    · simp [ha, bind, Except.bind] at h
    · simp only [ha, bind, Except.bind] at h
      split at h
      · cases h
      · rename_i q hq
        simp only [pure, Except.pure, Except.ok.injEq] at h
        subst h
        by_cases hm : a = m
        · subst hm; simp [Dict.get?, ha]
        · have : Dict.get? ((a, (⟨f, own⟩ : Fixed V)) :: q) m = Dict.get? q m := by simp [Dict.get?, hm]
          rw [this, ih q hq m]
          simp [Ne.symm hm]

theorem fix_has (d : DistObj V) (own : Call V) (L : List Str) : ∀ p : Dict Str (Fixed V),
    (L.mapM fun m => match d.meths.get? m with
      | some f => (Except.ok (m, ⟨f, own⟩) : Py (Str × Fixed V))
      | none => .error .attribute) = .ok p → ∀ m ∈ L, ∃ f, d.meths.get? m = some f := by
  induction L with
  | nil => intro p h m hm; simp at hm
  | cons a L ih =>
    intro p h m hm
    rw [List.mapM_cons] at h
    rcases ha : d.meths.get? a with _ | f
    · simp [ha, bind, Except.bind] at h
    · simp only [ha, bind, Except.bind] at h
      split at h
      · cases h
      · rename_i q hq
        rcases List.mem_cons.mp hm with rfl | hm
        · exact ⟨f, ha⟩
        · exact ih q hq m hm

theorem fixMethods_get {attrs : List Str} {d : DistObj V} {own : Call V} {p : Dict Str (Fixed V)}
    (h : fixMethods attrs d own = .ok p) (m : Str) :
    p.get? m = if m ∈ Spec.libraryNames ∧ m ∈ attrs then (d.meths.get? m).map (fun f => ⟨f, own⟩) else none := by
  rw [fix_get d own _ p h m]
  simp only [List.mem_filter, decide_eq_true_eq]
  rfl

/-- The functions by name: those of the library, and the two common names. -/
theorem distPartials_get {attrs : List Str} {d : DistObj V} {own : Call V} {p : Dict Str (Fixed V)}
    (h : distPartials attrs d own = .ok p) :
    (∀ m, m ≠ "prob".toList → m ≠ "logp".toList → p.get? m =
      if m ∈ Spec.libraryNames ∧ m ∈ attrs then (d.meths.get? m).map (fun f => ⟨f, own⟩) else none) ∧
    ((∃ f g, "pdf".toList ∈ attrs ∧ "logpdf".toList ∈ attrs ∧ Spec.HasFn d "pdf" f ∧ Spec.HasFn d "logpdf" g ∧
        p.get? "prob".toList = some ⟨f, own⟩ ∧ p.get? "logp".toList = some ⟨g, own⟩) ∨
      (∃ f g, "pmf".toList ∈ attrs ∧ "logpmf".toList ∈ attrs ∧ (∀ u, "pdf".toList ∈ attrs → ¬ Spec.HasFn d "pdf" u) ∧
        Spec.HasFn d "pmf" f ∧ Spec.HasFn d "logpmf" g ∧
        p.get? "prob".toList = some ⟨f, own⟩ ∧ p.get? "logp".toList = some ⟨g, own⟩) ∨
      (p.get? "prob".toList = none ∧ p.get? "logp".toList = none)) := by
  unfold distPartials at h
  rcases hq : fixMethods attrs d own with e | q
  · simp [hq, bind, Except.bind] at h
  · simp only [hq, bind, Except.bind, commonNames] at h
    have hget := fixMethods_get hq
    have hprob : q.get? "prob".toList = none := by
      rw [hget, if_neg]; exact fun h => absurd h.1 (by decide)
    have hlogp : q.get? "logp".toList = none := by
      rw [hget, if_neg]; exact fun h => absurd h.1 (by decide)
    have hin : ∀ (n : Str) (f : Fixed V), q.get? n = some f → n ∈ attrs ∧ d.meths.get? n = some f.f ∧
        f = ⟨f.f, own⟩ := by
      intro n f hf
      rw [hget] at hf
      split at hf
      · rename_i hc
        rcases hd : d.meths.get? n with _ | u
        · simp [hd] at hf
        · simp only [hd, Option.map_some, Option.some.injEq] at hf
          subst hf
          exact ⟨hc.2, rfl, rfl⟩
      · simp at hf
    have happ : ∀ (f g : Fixed V) (n : Str), n ≠ "prob".toList → n ≠ "logp".toList →
        Dict.get? (q ++ [("prob".toList, f), ("logp".toList, g)]) n = Dict.get? q n := by
      intro f g n h1 h2
      rw [Dict.get?_append]
      cases hn : Dict.get? q n with
      | some u => rfl
      | none => simp only [Dict.get?, if_neg (Ne.symm h1), if_neg (Ne.symm h2), Option.none_or]
    have happ1 : ∀ (f g : Fixed V),
        Dict.get? (q ++ [("prob".toList, f), ("logp".toList, g)]) "prob".toList = some f := by
      intro f g; rw [Dict.get?_append, hprob]; simp [Dict.get?]
    have happ2 : ∀ (f g : Fixed V),
        Dict.get? (q ++ [("prob".toList, f), ("logp".toList, g)]) "logp".toList = some g := by
      intro f g; rw [Dict.get?_append, hlogp]; simp [Dict.get?]
    rcases hp : q.get? "pdf".toList with _ | f
    · rcases hm : q.get? "pmf".toList with _ | f
      · simp only [hp, hm, Except.ok.injEq] at h
        subst h
        exact ⟨fun n _ _ => hget n, .inr (.inr ⟨hprob, hlogp⟩)⟩
      · simp only [hp, hm] at h
        rcases hl : q.get? "logpmf".toList with _ | g
        · simp only [hl, reduceCtorEq] at h
        · simp only [hl, Except.ok.injEq] at h
          subst h
          obtain ⟨a1, a2, a3⟩ := hin _ _ hm
          obtain ⟨b1, b2, b3⟩ := hin _ _ hl
          refine ⟨fun n h1 h2 => by rw [happ f g n h1 h2]; exact hget n, .inr (.inl ⟨f.f, g.f, a1, b1, ?_, a2, b2,
            by rw [happ1]; exact congrArg _ a3, by rw [happ2]; exact congrArg _ b3⟩)⟩
          intro u hu hd
          rw [hget, if_pos ⟨by decide, hu⟩, hd] at hp
          cases hp
    · simp only [hp] at h
      rcases hl : q.get? "logpdf".toList with _ | g
      · simp only [hl, reduceCtorEq] at h
      · simp only [hl, Except.ok.injEq] at h
        subst h
        obtain ⟨a1, a2, a3⟩ := hin _ _ hp
        obtain ⟨b1, b2, b3⟩ := hin _ _ hl
        exact ⟨fun n h1 h2 => by rw [happ f g n h1 h2]; exact hget n, .inl ⟨f.f, g.f, a1, b1, a2, b2,
          by rw [happ1]; exact congrArg _ a3, by rw [happ2]; exact congrArg _ b3⟩⟩

/-- The key under which the density in use is found. -/
def denKey (s : Option PScale) : Str := if (s.map PScale.isLog).getD false then "logp".toList else "prob".toList

theorem finishDist_inv {s r : PState V} {d : DistObj V} {own : Call V} (h : finishDist s d own = .ok r) :
    (∃ f, s.partials.get? (denKey s.scale) = some f) ∧ r.scale = s.scale ∧ r.kind = s.kind ∧ r.attrs = [] ∧
    r.maps = s.maps ∧ r.partials = s.partials ∧ r.exprs = s.exprs ∧
    (∀ f g F G, s.partials.get? "cdf".toList = some f → s.partials.get? "ppf".toList = some g →
      d.meths.get? "cdf".toList = some F → d.meths.get? "ppf".toList = some G →
      r.pfun = some (⟨F, own⟩, ⟨G, own⟩)) ∧
    (s.partials.get? "cdf".toList = none ∨ s.partials.get? "ppf".toList = none → r.pfun = s.pfun) ∧
    (∀ f R, s.partials.get? "rvs".toList = some f → d.meths.get? "rvs".toList = some R → r.sfun = some ⟨R, own⟩) ∧
    (s.partials.get? "rvs".toList = none → r.sfun = s.sfun) := by
  unfold finishDist at h
  change (match s.partials.get? (denKey s.scale) with
    | none => (Except.error Err.key : Py (PState V))
    | some _ => _) = _ at h
  rcases hk : s.partials.get? (denKey s.scale) with _ | f
  · simp only [hk, reduceCtorEq] at h
  · simp only [hk] at h
    refine ⟨⟨f, rfl⟩, ?_⟩
    rcases hc : s.partials.get? "cdf".toList with _ | f1 <;> rcases hp : s.partials.get? "ppf".toList with _ | f2 <;>
      rcases hr : s.partials.get? "rvs".toList with _ | f3 <;>
      rcases hF : d.meths.get? "cdf".toList with _ | F <;> rcases hG : d.meths.get? "ppf".toList with _ | G <;>
      rcases hR : d.meths.get? "rvs".toList with _ | R <;>
      simp only [hc, hp, hr, hF, hG, hR, Except.ok.injEq] at h <;> subst h <;> simp <;> tauto

theorem univ_inv {s r : PState V} {d : DistObj V} {own : Call V} {order delta : Option (Dict Str Route)}
    {ps : PSpec} (h : s.setProb (.univ d own order delta) ps = .ok r) :
    ∃ a m p, setScale s.scale ps = .ok a ∧ setMaps ⟨none, none⟩ order delta = .ok m ∧
      (∃ q, distPartials s.attrs d own = .ok q) ∧ distPartials d.meths.keys d own = .ok p ∧
      r.scale = some a ∧ r.maps = m ∧ r.kind = .univ ∧ r.partials = p ∧ r.exprs = some [] ∧
      (∃ f, p.get? (denKey (some a)) = some f) ∧
      (∀ F G, Spec.HasFn d "cdf" F → Spec.HasFn d "ppf" G → r.pfun = some (⟨F, own⟩, ⟨G, own⟩)) ∧
      (((∀ F, ¬ Spec.HasFn d "cdf" F) ∨ ∀ G, ¬ Spec.HasFn d "ppf" G) → r.pfun = s.pfun) ∧
      (∀ R, Spec.HasFn d "rvs" R → r.sfun = some ⟨R, own⟩) := by
  unfold PState.setProb at h
  simp only [bind, Except.bind] at h
  rcases ha : setScale s.scale ps with e | a
  · simp [ha] at h
  rcases hm : setMaps ⟨none, none⟩ order delta with e | m
  · simp [ha, hm] at h
  rcases hq : distPartials s.attrs d own with e | q
  · simp [ha, hm, hq] at h
  rcases hp : distPartials d.meths.keys d own with e | p
  · simp [ha, hm, hq, hp] at h
  simp only [ha, hm, hq, hp] at h
  obtain ⟨h1, h2, h3, -, h4, h5, h6, h7, h8, h9, -⟩ := finishDist_inv h
  have hg := (distPartials_get hp).1
  have hhas : ∀ (n : String) (F : Meth V), n.toList ∈ Spec.libraryNames → n.toList ≠ "prob".toList →
      n.toList ≠ "logp".toList → Spec.HasFn d n F → p.get? n.toList = some ⟨F, own⟩ := by
    intro n F hn n1 n2 hF
    rw [hg _ n1 n2, if_pos ⟨hn, Dict.get?_isSome.mp (by rw [hF]; rfl)⟩, hF]
    rfl
  have hnot : ∀ (n : String), n.toList ≠ "prob".toList → n.toList ≠ "logp".toList → (∀ F, ¬ Spec.HasFn d n F) →
      p.get? n.toList = none := by
    intro n n1 n2 hF
    rw [hg _ n1 n2]
    split
    · have : d.meths.get? n.toList = none := by
        rcases hd : d.meths.get? n.toList with _ | u
        · rfl
        · exact absurd hd (hF u)
      rw [this]; rfl
    · rfl
  refine ⟨a, m, p, rfl, rfl, ⟨q, rfl⟩, rfl, h2, h4, h3, h5, h6, h1, ?_, ?_, ?_⟩
  · intro F G hF hG
    exact h7 _ _ F G (hhas "cdf" F (by decide) (by decide) (by decide) hF)
      (hhas "ppf" G (by decide) (by decide) (by decide) hG) hF hG
  · rintro (hF | hG)
    · exact h8 (.inl (hnot "cdf" (by decide) (by decide) hF))
    · exact h8 (.inr (hnot "ppf" (by decide) (by decide) hG))
  · intro R hR
    exact h9 _ R (hhas "rvs" R (by decide) (by decide) (by decide) hR) hR

theorem Fixed.call_plain (sub : V → V → V) (f : Meth V) (own c : Call V)
    (h : Spec.Positional (own.args ++ c.args)) :
    Fixed.call sub ⟨none, none⟩ ⟨f, own⟩ c = f ⟨own.args ++ c.args, Spec.both own.kwds c.kwds⟩ := by
  have hun : unpackDict (⟨own.args ++ c.args, Spec.both own.kwds c.kwds⟩ : Call V) =
      ⟨own.args ++ c.args, Spec.both own.kwds c.kwds⟩ := by
    unfold unpackDict
    split
    · rename_i d hd; exact absurd hd (h d)
    · rfl
  simp only [Fixed.call, exprPartial]
  change (exprCall sub ⟨none, none⟩ false ⟨own.args ++ c.args, Spec.both own.kwds c.kwds⟩ >>= f) = _
  simp only [exprCall, hun, truthy, Bool.false_eq_true, if_false, bind, Except.bind]

/-! ### Densities -/

theorem setMaps_none : setMaps ⟨none, none⟩ none none = .ok ⟨none, none⟩ := rfl

theorem density_get {d : DistObj V} {own : Call V} {p : Dict Str (Fixed V)}
    (h : distPartials d.meths.keys d own = .ok p) {b : Bool} {f : Meth V} (hf : Spec.DensityOf d b f)
    (hs : ∃ g, p.get? (if b then "logp".toList else "prob".toList) = some g) :
    p.get? (if b then "logp".toList else "prob".toList) = some ⟨f, own⟩ := by
  obtain ⟨-, hc⟩ := distPartials_get h
  have hk : ∀ (n : String) (F : Meth V), Spec.HasFn d n F → n.toList ∈ d.meths.keys := fun n F hF =>
    Dict.get?_isSome.mp (by rw [hF]; rfl)
  have hu : ∀ {n : String} {F G : Meth V}, Spec.HasFn d n F → Spec.HasFn d n G → F = G := fun h1 h2 =>
    Option.some.inj (h1.symm.trans h2)
  rcases hc with ⟨F, G, -, -, hF, hG, c1, c2⟩ | ⟨F, G, -, -, hno, hF, hG, c1, c2⟩ | ⟨c1, c2⟩
  · cases hf with
    | pdf _ h => rw [hu h hF]; simpa using c1
    | logpdf _ g h h' => rw [hu h' hG]; simpa using c2
    | pmf _ h _ => exact absurd hF (h F)
    | logpmf _ h _ => exact absurd hF (h F)
  · cases hf with
    | pdf _ h => exact absurd h (hno _ (hk _ _ h))
    | logpdf _ g h h' => exact absurd h (hno _ (hk _ _ h))
    | pmf _ _ h => rw [hu h hF]; simpa using c1
    | logpmf _ _ h => rw [hu h hG]; simpa using c2
  · obtain ⟨g, hg⟩ := hs
    cases b <;> simp_all

theorem denKey_eq (a : PScale) :
    denKey (some a) = if Spec.Logarithmic a then "logp".toList else "prob".toList := by
  cases a <;> rfl

/-- **C91, evaluation.**  After any calls of `set_prob`, a probability set to a univariate
distribution with parameters by keyword evaluates at a value to the density of the
distribution with those parameters there, or to its logarithm if its scale is
logarithmic. -/
theorem C91_evaluates (nil : V) (sub : V → V → V) (stack : PArg V → Py V) (l : List (PGiven V × PSpec))
    (d : DistObj V) (params : Dict Str V) (ps : PSpec) (s : PState V)
    (h : (PState.new nil).run (l ++ [(.univ d ⟨[], params⟩ none none, ps)]) = .ok s) :
    ∃ a, s.scale = some a ∧ ∀ f, Spec.DensityOf d (Spec.Logarithmic a) f →
      ∀ x k, s.eval sub stack ⟨[.val x], k⟩ = f ⟨[.val x], params⟩ := by
  obtain ⟨m, -, hs⟩ := run_last _ _ _ _ _ h
  obtain ⟨a, m', p, -, hm, -, hp, h1, h2, h3, h4, -, h5, -⟩ := univ_inv hs
  rw [setMaps_none] at hm
  cases hm
  refine ⟨a, h1, fun f hf x k => ?_⟩
  rw [denKey_eq] at h5
  have hget := density_get hp hf h5
  have hkey : (if (s.scale.map PScale.isLog).getD false then "logp".toList else "prob".toList) =
      if Spec.Logarithmic a then "logp".toList else "prob".toList := by
    rw [h1]; exact denKey_eq a
  unfold PState.eval
  simp only [h3]
  rw [hkey, h4, hget, h2]
  simp only
  rw [Fixed.call_plain _ _ _ _ (fun d => by simp)]
  rfl

/-- **C91 (intended), parameters by position.**  They are passed after the value, as the
library has them. -/
def C91_positional_claim : Prop :=
  ∀ (d : DistObj ℝ) (args : List ℝ) (f : Meth ℝ) (s : PState ℝ), Spec.DensityOf d false f →
    (PState.new 0).run [(.univ d ⟨args.map .val, []⟩ none none, .none)] = .ok s →
    ∀ x, s.eval (· - ·) (fun _ => .error .value) ⟨[.val x], []⟩ = f ⟨.val x :: args.map .val, []⟩

/-- They are passed before it. -/
theorem C91_positional (nil : V) (sub : V → V → V) (stack : PArg V → Py V) (l : List (PGiven V × PSpec))
    (d : DistObj V) (args : List V) (params : Dict Str V) (ps : PSpec) (s : PState V)
    (h : (PState.new nil).run (l ++ [(.univ d ⟨args.map .val, params⟩ none none, ps)]) = .ok s) :
    ∃ a, s.scale = some a ∧ ∀ f, Spec.DensityOf d (Spec.Logarithmic a) f →
      ∀ x k, s.eval sub stack ⟨[.val x], k⟩ = f ⟨(args ++ [x]).map .val, params⟩ := by
  obtain ⟨m, -, hs⟩ := run_last _ _ _ _ _ h
  obtain ⟨a, m', p, -, hm, -, hp, h1, h2, h3, h4, -, h5, -⟩ := univ_inv hs
  rw [setMaps_none] at hm
  cases hm
  refine ⟨a, h1, fun f hf x k => ?_⟩
  rw [denKey_eq] at h5
  have hget := density_get hp hf h5
  have hkey : (if (s.scale.map PScale.isLog).getD false then "logp".toList else "prob".toList) =
      if Spec.Logarithmic a then "logp".toList else "prob".toList := by
    rw [h1]; exact denKey_eq a
  unfold PState.eval
  simp only [h3]
  rw [hkey, h4, hget, h2]
  simp only
  rw [Fixed.call_plain]
  · simp [Spec.both]
  · intro d hd
    have : PArg.dict d ∈ (args.map PArg.val ++ [PArg.val x] : List (PArg V)) := by
      simp only at hd
      rw [hd]; simp
    simp at this

/-! ### Functions by name -/

/-- **C91, functions by name.**  Every function of the library the distribution has is found
under its name, and called with the parameters besides its arguments, keywords of the
call taking precedence; others raise KeyError. -/
theorem C91_named (nil : V) (sub : V → V → V) (l : List (PGiven V × PSpec))
    (d : DistObj V) (params : Dict Str V) (ps : PSpec) (s : PState V)
    (h : (PState.new nil).run (l ++ [(.univ d ⟨[], params⟩ none none, ps)]) = .ok s) (c : Call V)
    (hc : Spec.Positional c.args) :
    (∀ name f, name ∈ Spec.libraryNames → d.meths.get? name = some f →
      s.item sub name c = f ⟨c.args, Spec.both params c.kwds⟩) ∧
    (∀ f, Spec.DensityOf d false f → s.item sub "prob".toList c = f ⟨c.args, Spec.both params c.kwds⟩) ∧
    (∀ f, Spec.DensityOf d true f → s.item sub "logp".toList c = f ⟨c.args, Spec.both params c.kwds⟩) ∧
    (∀ name, name ≠ "prob".toList → name ≠ "logp".toList → (name ∉ Spec.libraryNames ∨ d.meths.get? name = none) →
      s.item sub name c = .error .key) := by
  obtain ⟨m, -, hs⟩ := run_last _ _ _ _ _ h
  obtain ⟨a, m', p, -, hm, -, hp, h1, h2, h3, h4, -, h5, -⟩ := univ_inv hs
  rw [setMaps_none] at hm
  cases hm
  have hit : ∀ name f, p.get? name = some ⟨f, ⟨[], params⟩⟩ →
      s.item sub name c = f ⟨c.args, Spec.both params c.kwds⟩ := by
    intro name f hf
    unfold PState.item
    simp only [h3, h4, hf, h2]
    rw [Fixed.call_plain _ _ _ _ (by simpa using hc)]
    rfl
  obtain ⟨hg, hcom⟩ := distPartials_get hp
  have hex : ∀ b : Bool, ∃ g, p.get? (if b then "logp".toList else "prob".toList) = some g := by
    rcases hcom with ⟨F, G, -, -, -, -, c1, c2⟩ | ⟨F, G, -, -, -, -, -, c1, c2⟩ | ⟨c1, c2⟩
    · intro b; cases b
      · exact ⟨_, c1⟩
      · exact ⟨_, c2⟩
    · intro b; cases b
      · exact ⟨_, c1⟩
      · exact ⟨_, c2⟩
    · obtain ⟨g, hg⟩ := h5
      rw [denKey_eq] at hg
      split at hg
      · rw [c2] at hg; cases hg
      · rw [c1] at hg; cases hg
  refine ⟨?_, ?_, ?_, ?_⟩
  · intro name f hn hf
    apply hit
    rw [hg name (by rintro rfl; exact absurd hn (by decide)) (by rintro rfl; exact absurd hn (by decide)),
      if_pos ⟨hn, Dict.get?_isSome.mp (by rw [hf]; rfl)⟩, hf]
    rfl
  · intro f hf
    exact hit _ f (density_get hp hf (hex false))
  · intro f hf
    exact hit _ f (density_get hp hf (hex true))
  · intro name n1 n2 hn
    have : p.get? name = none := by
      rw [hg name n1 n2]
      split
      · rename_i hin
        rcases hn with hn | hn
        · exact absurd hin.1 hn
        · rw [hn]; rfl
      · rfl
    unfold PState.item
    simp only [h3, h4, this]

/-! ### Cumulative functions and sampling -/

/-- **C91, cumulative and sampling functions** are those of the distribution, with its
parameters. -/
theorem C91_cumulative (nil : V) (sub : V → V → V) (l : List (PGiven V × PSpec))
    (d : DistObj V) (params : Dict Str V) (ps : PSpec) (s : PState V)
    (h : (PState.new nil).run (l ++ [(.univ d ⟨[], params⟩ none none, ps)]) = .ok s) (c : Call V)
    (hc : Spec.Positional c.args) :
    (∀ F G, Spec.HasFn d "cdf" F → Spec.HasFn d "ppf" G →
      s.cumul sub false c = F ⟨c.args, Spec.both params c.kwds⟩ ∧
      s.cumul sub true c = G ⟨c.args, Spec.both params c.kwds⟩) ∧
    (∀ R, Spec.HasFn d "rvs" R → s.draw sub c = R ⟨c.args, Spec.both params c.kwds⟩) := by
  obtain ⟨m, -, hs⟩ := run_last _ _ _ _ _ h
  obtain ⟨a, m', p, -, hm, -, hp, h1, h2, h3, h4, -, h5, h6, -, h7⟩ := univ_inv hs
  constructor
  · intro F G hF hG
    simp only [PState.cumul, h6 F G hF hG, Bool.false_eq_true, if_false, if_true]
    constructor <;> rw [Fixed.call_plain _ _ _ _ (by simpa using hc)] <;> rfl
  · intro R hR
    simp only [PState.draw, h7 R hR]
    rw [Fixed.call_plain _ _ _ _ (by simpa using hc)]
    rfl

/-- What has no cumulative and sampling functions of its own. -/
inductive Spec.Other : PGiven V → Prop
  | obj (attrs : List Str) (v : V) : Spec.Other (.obj attrs v)
  | scalar (v : V) : Spec.Other (.scalar v)
  | fn (attrs : List Str) (f : Meth V) (own : Call V) (order delta : Option (Dict Str Route)) :
      Spec.Other (.fn attrs f own order delta)

/-- **C91 (intended), no cumulative functions of others.**  A probability set to a number, an
array or a function has no cumulative functions. -/
def C91_own_claim : Prop :=
  ∀ (l : List (PGiven ℝ × PSpec)) (g : PGiven ℝ) (ps : PSpec) (s : PState ℝ), Spec.Other g →
    (PState.new 0).run (l ++ [(g, ps)]) = .ok s → ∀ b c, Raises (s.cumul (· - ·) b c)

/-- Setting a number, an array or a function leaves cumulative functions and the sampling
function as they are. -/
theorem C91_kept (s r : PState V) (g : PGiven V) (ps : PSpec) (hg : Spec.Other g)
    (h : s.setProb g ps = .ok r) (sub : V → V → V) (c : Call V) :
    (∀ b, r.cumul sub b c = s.cumul sub b c) ∧ r.draw sub c = s.draw sub c := by
  have : r.pfun = s.pfun ∧ r.sfun = s.sfun := by
    unfold PState.setProb at h
    simp only [bind, Except.bind] at h
    rcases ha : setScale s.scale ps with e | a
    · simp [ha] at h
    simp only [ha] at h
    cases hg with
    | obj attrs v => simp only [pure, Except.pure, Except.ok.injEq] at h; subst h; exact ⟨rfl, rfl⟩
    | scalar v => simp only [pure, Except.pure, Except.ok.injEq] at h; subst h; exact ⟨rfl, rfl⟩
    | fn attrs f own order delta =>
      simp only at h
      rcases hm : setMaps ⟨none, none⟩ order delta with e | m
      · simp [hm] at h
      simp only [hm, pure, Except.pure, Except.ok.injEq] at h; subst h; exact ⟨rfl, rfl⟩
  exact ⟨fun b => by simp only [PState.cumul, this.1], by simp only [PState.draw, this.2]⟩

/-- **C91, no cumulative functions of others**: if no distribution has been set. -/
theorem C91_own_partial (nil : V) (sub : V → V → V) (l : List (PGiven V × PSpec)) (hl : ∀ o ∈ l, Spec.Other o.1)
    (s : PState V) (h : (PState.new nil).run l = .ok s) (c : Call V) :
    (∀ b, Raises (s.cumul sub b c)) ∧ Raises (s.draw sub c) := by
  suffices ∀ (l : List (PGiven V × PSpec)) (s0 s : PState V), (∀ o ∈ l, Spec.Other o.1) → s0.run l = .ok s →
      (∀ b, s.cumul sub b c = s0.cumul sub b c) ∧ s.draw sub c = s0.draw sub c by
    obtain ⟨h1, h2⟩ := this l _ s hl h
    exact ⟨fun b => ⟨.type, by rw [h1]; rfl⟩, ⟨.type, by rw [h2]; rfl⟩⟩
  clear hl h
  intro l
  induction l with
  | nil => intro s0 s _ h; cases h; exact ⟨fun _ => rfl, rfl⟩
  | cons o l ih =>
    intro s0 s hl h
    obtain ⟨g, ps⟩ := o
    simp only [PState.run, bind, Except.bind] at h
    cases hs : s0.setProb g ps with
    | error e => rw [hs] at h; cases h
    | ok a =>
      rw [hs] at h
      obtain ⟨h1, h2⟩ := ih a s (fun o ho => hl o (by simp [ho])) h
      obtain ⟨h3, h4⟩ := C91_kept s0 a g ps (hl (g, ps) (by simp)) hs sub c
      exact ⟨fun b => by rw [h1, h3], by rw [h2, h4]⟩

end Probayes
