/-
Property C89: rejection sampling by a process with a proposal function and uniform
thresholds.  First what every sample is, as a function of its own draws.
-/
import Verif.Model.Reject
import Verif.Props.SP
import Verif.Props.Names
import Mathlib.Data.List.OfFn

namespace Probayes

/-- How a continuous variable draws a random value from a uniform fraction `u`: at
`G (a + (b - a) * u)`.  Either between its own limits; or between its transformed limits, and
transformed back; or between the cumulative probabilities of its (transformed) limits, by
the inverse of the cumulative function. -/
inductive Spec.DrawsBy (v : CRV) : ℝ → ℝ → (ℝ → ℝ) → Prop
  | limits (lo hi : ℝ) : v.var.lo = lo → v.var.hi = hi → v.ufun = none → v.pfun = none →
      Spec.DrawsBy v lo hi id
  | transform (lo hi : ℝ) (F G : ℝ → ℝ) : v.var.lo = lo → v.var.hi = hi → v.ufun = some (F, G) →
      v.pfun = none → Spec.DrawsBy v (F lo) (F hi) G
  | cumulative (lo hi : ℝ) (F G : ℝ → ℝ) : v.var.lo = lo → v.var.hi = hi → v.ufun = none →
      v.pfun = some (F, G) → Spec.DrawsBy v (F lo) (F hi) G
  | both (lo hi : ℝ) (U V F G : ℝ → ℝ) : v.var.lo = lo → v.var.hi = hi → v.ufun = some (U, V) →
      v.pfun = some (F, G) → Spec.DrawsBy v (F (U lo)) (F (U hi)) G

/-- Values by the names of the variables, in order. -/
def Spec.byName {n : ℕ} (vars : Fin n → CRV) (x : Fin n → ℝ) : Dict Str ℝ :=
  List.ofFn fun i => ((vars i).name, x i)

theorem evaluate_draw (v : CRV) (a b : ℝ) (G : ℝ → ℝ) (h : Spec.DrawsBy v a b G) (u : ℝ) :
    v.evaluate true (.count 0) (fun _ => u) = .ok (.scalar (G (a + (b - a) * u))) := by
  rcases h with ⟨lo, hi, h1, h2, h3, h4⟩ | ⟨lo, hi, F, G, h1, h2, h3, h4⟩ |
      ⟨lo, hi, F, G, h1, h2, h3, h4⟩ | ⟨lo, hi, U, V, F, G, h1, h2, h3, h4⟩ <;>
    simp [CRV.evaluate, h1, h2, h3, h4, FloatVar.evaluate, uniform, UFun.fwd, UFun.inv, SA.toVArg,
      evaluatePfun, FloatVar.isfinite, VArg.map, bind, Except.bind, pure, Except.pure]

theorem evaluateZero_ok : ∀ (n : ℕ) (vars : Fin n → CRV) (a b : Fin n → ℝ) (G : Fin n → ℝ → ℝ)
    (u : Fin n → ℝ) (vals : Dict Str ℝ), (∀ i, Spec.DrawsBy (vars i) (a i) (b i) (G i)) →
    (vals.keys ++ List.ofFn fun i => (vars i).name).Nodup →
    evaluateZero n vars u vals =
      .ok (vals ++ Spec.byName vars fun i => G i (a i + (b i - a i) * u i)) := by
  intro n
  induction n with
  | zero => intro vars a b G u vals _ _; simp [evaluateZero, Spec.byName]
  | succ n ih =>
    intro vars a b G u vals hd hn
    have hnot : (vars 0).name ∉ vals.keys := by
      intro hc
      rw [List.nodup_append] at hn
      exact hn.2.2 _ hc _ (by simp [List.ofFn_succ]) rfl
    simp only [evaluateZero, evaluate_draw (vars 0) _ _ _ (hd 0) (u 0), bind, Except.bind]
    rw [ih (fun i => vars i.succ) (fun i => a i.succ) (fun i => b i.succ) (fun i => G i.succ)
      (fun i => u i.succ) _ (fun i => hd i.succ) (by
        rw [Dict.set_of_notMem hnot]
        rw [List.ofFn_succ] at hn
        simpa [Dict.keys] using hn), Dict.set_of_notMem hnot]
    simp [Spec.byName, List.ofFn_succ]

theorem primeKeys_go {V : Type} : ∀ (todo done : Dict Str V),
    (todo.keys ++ done.keys).Nodup → (∀ k ∈ todo.keys, Spec.Plain k) →
    suffixKeys ['\''] todo.keys (todo ++ Spec.primed done) =
    .ok (Spec.primed (done ++ todo)) := by
  intro todo
  induction todo with
  | nil => intro done _ _; simp [suffixKeys]
  | cons kv todo ih =>
    obtain ⟨k, x⟩ := kv
    intro done hn hp
    have hk : k ++ ['\''] ∉ Dict.keys (todo ++ Spec.primed done) := by
      intro hc
      rw [Dict.keys_append, List.mem_append] at hc
      rcases hc with hc | hc
      · exact (hp (k ++ ['\'']) (List.mem_cons_of_mem _ hc)).2 (by simp)
      · obtain ⟨kv, hkv, he⟩ := List.mem_map.mp hc
        obtain ⟨kv', hkv', rfl⟩ := List.mem_map.mp hkv
        have hke : kv'.1 = k := by simpa using he
        simp only [Dict.keys, List.map_cons, List.cons_append, List.nodup_cons] at hn
        exact hn.1 (by rw [← hke]; exact List.mem_append_right _ (List.mem_map.mpr ⟨kv', hkv', rfl⟩))
    have hkeys : Dict.keys ((k, x) :: todo) = k :: Dict.keys todo := rfl
    rw [hkeys]
    simp only [suffixKeys, List.cons_append, Dict.get?, if_true, Dict.erase, bind, Except.bind]
    rw [Dict.set_of_notMem hk]
    have := ih (done ++ [(k, x)]) (by
      simp only [hkeys, List.cons_append, List.nodup_cons] at hn
      rw [Dict.keys_append, ← List.append_assoc, List.nodup_append]
      refine ⟨hn.2, by simp [Dict.keys], ?_⟩
      intro y hy z hz hyz
      have hzk : z = k := by simpa [Dict.keys] using hz
      exact hn.1 (by rw [← hzk, ← hyz]; exact hy)) (fun k' hk' => hp _ (by simp [hkeys, hk']))
    simpa [Spec.primed] using this

theorem primeKeys_ok {V : Type} (vals : Dict Str V) (hn : vals.keys.Nodup)
    (hp : ∀ k ∈ vals.keys, Spec.Plain k) : suffixKeys ['\''] vals.keys vals = .ok (Spec.primed vals) := by
  have := primeKeys_go vals [] (by simpa using hn) hp
  simpa [Spec.primed] using this

/-- The setting: distinct plain names of at least one variable, each drawing its values in
its own way. -/
structure Spec.Drawing {n : ℕ} (vars : Fin n → CRV) (a b : Fin n → ℝ) (G : Fin n → ℝ → ℝ) : Prop where
  some : 0 < n
  distinct : ∀ i j, (vars i).name = (vars j).name → i = j
  plain : ∀ i, Spec.Plain (vars i).name
  draws : ∀ i, Spec.DrawsBy (vars i) (a i) (b i) (G i)

/-- The values drawn from fractions `u`. -/
def Spec.drawnAt {n : ℕ} (a b : Fin n → ℝ) (G : Fin n → ℝ → ℝ) (u : Fin n → ℝ) : Fin n → ℝ :=
  fun i => G i (a i + (b i - a i) * u i)

theorem byName_keys {n : ℕ} (vars : Fin n → CRV) (x : Fin n → ℝ) :
    (Spec.byName vars x).keys = List.ofFn fun i => (vars i).name := by
  simp [Dict.keys, Spec.byName, List.map_ofFn, Function.comp_def]

theorem fields_nodup {n : ℕ} (vars : Fin n → CRV) (h : ∀ i j, (vars i).name = (vars j).name → i = j) :
    (List.ofFn fun i => (vars i).name).Nodup := List.nodup_ofFn.mpr fun i j => h i j

theorem proposeZero_ok {n : ℕ} (vars : Fin n → CRV) (a b : Fin n → ℝ) (G : Fin n → ℝ → ℝ)
    (h : Spec.Drawing vars a b G) (g : Dict Str ℝ → ℝ) (u : Fin n → ℝ) :
    proposeZero vars g u = .ok ⟨Spec.primed (Spec.byName vars (Spec.drawnAt a b G u)),
      g (Spec.byName vars (Spec.drawnAt a b G u))⟩ := by
  have h1 := evaluateZero_ok n vars a b G u [] h.draws (by simpa using fields_nodup vars h.distinct)
  rw [List.nil_append] at h1
  have h2 := primeKeys_ok (Spec.byName vars (Spec.drawnAt a b G u))
    (by rw [byName_keys]; exact fields_nodup vars h.distinct) (by
      intro k hk
      rw [byName_keys, List.mem_ofFn] at hk
      obtain ⟨i, rfl⟩ := hk
      exact h.plain i)
  simp only [proposeZero, h1, bind, Except.bind]
  erw [h2]
  rfl

theorem callSpot_ok {n : ℕ} (vars : Fin n → CRV) (a b : Fin n → ℝ) (G : Fin n → ℝ → ℝ)
    (h : Spec.Drawing vars a b G) (f : Dict Str ℝ → ℝ) (x : Fin n → ℝ) (q : ℝ) :
    callSpot vars f ⟨Spec.primed (Spec.byName vars x), q⟩ =
      .ok ⟨Spec.byName vars x, f (Spec.byName vars x)⟩ := by
  have h1 := C51_desuffix (Spec.byName vars x)
    (by rw [byName_keys]; exact fields_nodup vars h.distinct) (by
      intro hc
      have := congrArg List.length hc
      simp only [Spec.byName, List.length_ofFn, List.length_nil] at this
      exact absurd h.some (by omega))
  simp only [callSpot, h1, bind, Except.bind]
  rw [if_pos]
  · rfl
  · rw [byName_keys]
    refine ⟨fun i => List.mem_ofFn.mpr ⟨i, rfl⟩, fun k hk => ?_⟩
    obtain ⟨i, hi⟩ := List.mem_ofFn.mp hk
    exact ⟨i, hi⟩

open Classical in
/-- The sample made from the draws `ω`: its value and that value's probability, the proposal
with the same value, the score, the threshold and whether the score reaches it.  The verdict
is the value for the first sample of a sampler and for those accepted. -/
noncomputable def Spec.rejectSample {n : ℕ} (vars : Fin n → CRV) (a b : Fin n → ℝ) (G : Fin n → ℝ → ℝ)
    (f g : Dict Str ℝ → ℝ) (low high : ℝ) (first : Prop) (ω : RDraw n) : Sample Spot :=
  let d := Spec.byName vars (Spec.drawnAt a b G ω.u)
  let t := low + (high - low) * ω.t
  { o := none, p := some ⟨d, f d⟩, q := some ⟨Spec.primed d, g d⟩, r := none
    s := some (f d), t := some t, u := some (decide (t ≤ f d))
    v := if first ∨ t ≤ f d then some ⟨d, f d⟩ else none }

theorem reject_next {n : ℕ} (vars : Fin n → CRV) (a b : Fin n → ℝ) (G : Fin n → ℝ → ℝ)
    (h : Spec.Drawing vars a b G) (f g : Dict Str ℝ → ℝ) (low high : ℝ) (last : Option (OPQR Spot))
    (ω : RDraw n) :
    (nextCore (rejectProc vars f g low high) last ω ()).2.2 =
        .ok (.sample (Spec.rejectSample vars a b G f g low high (last = none) ω)) ∧
      (nextCore (rejectProc vars f g low high) last ω ()).2.1 ≠ none := by
  have hs : sampleProp (rejectOps vars f g) none ω () =
      ((), .ok ⟨none, some ⟨Spec.byName vars (Spec.drawnAt a b G ω.u),
          f (Spec.byName vars (Spec.drawnAt a b G ω.u))⟩,
        some ⟨Spec.primed (Spec.byName vars (Spec.drawnAt a b G ω.u)),
          g (Spec.byName vars (Spec.drawnAt a b G ω.u))⟩, none⟩) := by
    simp [sampleProp, rejectOps, proposeZero_ok vars a b G h, callSpot_ok vars a b G h, bind, Except.bind,
      pure, Except.pure]
  rcases last with _ | l
  · simp [nextCore, rejectProc, hs, judge, evalScores, evalUpdate, spotScore, reachUpdate, bind, Except.bind,
      pure, Except.pure, Spec.rejectSample]
  · by_cases hc : low + (high - low) * ω.t ≤ f (Spec.byName vars (Spec.drawnAt a b G ω.u)) <;>
    simp [nextCore, rejectProc, hs, judge, evalScores, evalUpdate, spotScore, reachUpdate, bind, Except.bind,
      pure, Except.pure, Spec.rejectSample, hc]

open Classical in
/-- C89: the samples of a new sampler, however many are drawn (within its stop count): none
fails, and the k-th is made from the k-th draws alone. -/
theorem C89_run {n : ℕ} (vars : Fin n → CRV) (a b : Fin n → ℝ) (G : Fin n → ℝ → ℝ)
    (h : Spec.Drawing vars a b G) (f g : Dict Str ℝ → ℝ) (low high : ℝ) (S : SPState Unit Spot)
    (stop : Option ℤ) (m : ℕ) (hm : ∀ n, stop = some n → (m : ℤ) ≤ n) (ω : ℕ → RDraw n) :
    (drain (rejectProc vars f g low high) S.made ω m (mkSampler S stop)).2 =
      ((List.range m).map fun k =>
        .sample (Spec.rejectSample vars a b G f g low high (k = 0) (ω k)), none) := by
  suffices ∀ (k : ℕ) (S : SPState Unit Spot) (q : ℕ) (ω : ℕ → RDraw n) (l : Option (OPQR Spot)) (c : ℕ),
      Live S q stop l c → (∀ n, stop = some n → ((c + k : ℕ) : ℤ) ≤ n) →
      (drain (rejectProc vars f g low high) q ω k S).2 = ((List.range k).map fun j =>
        .sample (Spec.rejectSample vars a b G f g low high (j = 0 ∧ l = none) (ω j)), none) by
    have h0 := this m _ S.made ω none 0 (live_mkSampler S stop) (by simpa using hm)
    simpa using h0
  intro k
  induction k with
  | zero => intro S q ω l c _ _; rfl
  | succ k ih =>
    intro S q ω l c hl hk
    obtain ⟨hx, hne⟩ := reject_next vars a b G h f g low high l (ω 0)
    obtain ⟨S', hS', hl', _, _⟩ := genNext_live _ S q stop l c (ω 0) hl
      (fun n h => by have := hk n h; push_cast at this; omega) _ hx
    have hd := ih S' q (fun i => ω (i+1)) _ (c+1) hl'
      (fun n h => by have := hk n h; push_cast at this ⊢; omega)
    have hd1 := congrArg Prod.fst hd
    have hd2 := congrArg Prod.snd hd
    simp only at hd1 hd2
    simp only [drain, hS', List.range_succ_eq_map, List.map_cons, List.map_map, hd1, hd2]
    simp [Function.comp_def, hne]

end Probayes
