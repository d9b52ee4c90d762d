/-
C26 (summing distributions of scalars).
-/
import Verif.Model.PDSum
import Verif.Lemmas.PDCheck
import Verif.Lemmas.PDDrop
import Verif.Lemmas.PDProduct3
import Verif.Props.PDMarg2

namespace Probayes

/-- The number `x`, as a scalar or as an array without axes. -/
def Spec.Number (v : Val) (x : ℚ) : Prop := v = .scalar x ∨ v = .arr [] [x]

/-- Variable `k` is a set of one integer (a number of unspecified values). -/
def Spec.CountAt (a : PD) (k : Str) (n : ℤ) : Prop := Dict.get? a.vals k = some (.setint n)

/-- Variable `k` has the value `x`. -/
def Spec.NumberAt (a : PD) (k : Str) (x : ℚ) : Prop := ∃ v, Dict.get? a.vals k = some v ∧ Spec.Number v x

/-- Distributions that can be summed: the same variables and conditions in the same
order, the same scale, and each variable either a value in all of them or a count
in all of them. -/
structure Spec.Summable (fmt : Val → Str) (first : PD) (args : List PD) : Prop where
  head : args.head? = some first
  wf : ∀ a ∈ args, a.WF fmt
  scale : ∀ a ∈ args, first.pscale = a.pscale
  marg : ∀ a ∈ args, first.marg.keys = a.marg.keys
  cond : ∀ a ∈ args, first.cond.keys = a.cond.keys
  kinds : ∀ k ∈ first.keylist, (∀ a ∈ args, ∃ n, Spec.CountAt a k n) ∨ (∀ a ∈ args, ∃ x, Spec.NumberAt a k x)

/-- The sum: the same variables and scale, one axis along which the distributions
are listed in order with their values and their probabilities; counts add up. -/
structure Spec.Sum (first : PD) (args : List PD) (r : PD) : Prop where
  marg : r.marg.keys = first.marg.keys
  cond : r.cond.keys = first.cond.keys
  keys : r.keylist = first.marg.keys ++ first.cond.keys
  scale : r.pscale = first.pscale
  shape : r.shape = [args.length]
  numbers : ∀ k, (∀ a ∈ args, ∃ x, Spec.NumberAt a k x) → k ∈ first.keylist → r.axis k = some 0 ∧
    ∃ xs : List ℚ, r.values k = some (.arr [args.length] xs) ∧ xs.length = args.length ∧
      ∀ (i : ℕ) (a : PD), args[i]? = some a → ∃ x, Spec.NumberAt a k x ∧ xs[i]? = some x
  counts : ∀ k (n : PD → ℤ), (∀ a ∈ args, Spec.CountAt a k (n a)) → k ∈ first.keylist →
    Dict.get? r.vals k = some (.setint (args.map n).sum)
  entry : ∀ (i : ℕ) (a : PD), args[i]? = some a → r.at [i] = a.at []

/-! ### the loop -/

/-- What one value does to the accumulated one. -/
def sumUpd : SumVal → Val → SumVal
  | .count n, .setint m => .count (n + m)
  | .list l, v => .list (l ++ [v])
  | s, _ => s

theorem set_map {V : Type _} (K : List Str) (f : Str → V) (k0 : Str) (x : V) (h : k0 ∈ K) (hn : K.Nodup) :
    Dict.set (K.map fun k => (k, f k)) k0 x = K.map fun k => (k, if k = k0 then x else f k) := by
  induction K with
  | nil => simp at h
  | cons k K ih =>
    rw [List.nodup_cons] at hn
    by_cases hk : k = k0
    · subst hk
      simp only [List.map_cons, Dict.set, if_true, List.cons.injEq, true_and]
      apply List.map_congr_left
      intro k' hk'
      rw [if_neg]
      rintro rfl
      exact hn.1 hk'
    · simp only [List.map_cons, Dict.set, hk, if_false, List.cons.injEq, true_and]
      exact ih (by simpa [Ne.symm hk] using h) hn.2

theorem get?_mapKeys {V : Type _} (K : List Str) (f : Str → V) (k0 : Str) (h : k0 ∈ K) :
    Dict.get? (K.map fun k => (k, f k)) k0 = some (f k0) := by
  induction K with
  | nil => simp at h
  | cons k K ih =>
    by_cases hk : k = k0
    · subst hk; simp [Dict.get?]
    · simp only [List.map_cons, Dict.get?, hk, if_false]
      exact ih (by simpa [Ne.symm hk] using h)

theorem keys_mapKeys {V : Type _} (K : List Str) (f : Str → V) : Dict.keys (K.map fun k => (k, f k)) = K := by
  simp [Dict.keys, Function.comp_def]

/-- A value of the expected kind. -/
def kindOK (unit : Bool) (v : Val) : Prop := v.isunitsetint = unit

/-- A state of the expected kind. -/
def SumVal.kind : SumVal → Bool
  | .count _ => true
  | .list _ => false

theorem kind_upd (s : SumVal) (v : Val) : (sumUpd s v).kind = s.kind := by
  cases s with
  | count n => cases v <;> rfl
  | list l => cases v <;> rfl

theorem sumStep_ok (K : List Str) (hn : K.Nodup) (u : Str → Bool) (f : Str → SumVal) (kv : Str × Val)
    (hk : kv.1 ∈ K) (hf : (f kv.1).kind = u kv.1) (hv : kv.2.isunitsetint = u kv.1) :
    sumStep (K.map fun k => (k, u k)) (K.map fun k => (k, f k)) kv =
      .ok (K.map fun k => (k, if k = kv.1 then sumUpd (f kv.1) kv.2 else f k)) := by
  obtain ⟨k0, v⟩ := kv
  simp only at hk hf hv
  rw [← set_map K f k0 _ hk hn]
  unfold sumStep
  rw [get?_mapKeys K u k0 hk, get?_mapKeys K f k0 hk]
  rcases hfk : f k0 with n | l
  · rw [hfk] at hf
    have hu : u k0 = true := hf.symm
    rw [hu] at hv
    cases v <;> simp [Val.isunitsetint] at hv
    simp [hu, sumUpd]
  · rw [hfk] at hf
    have hu : u k0 = false := hf.symm
    rw [hu] at hv
    cases v <;> simp [Val.isunitsetint] at hv <;> simp [hu, sumUpd]

theorem sumInner_ok (K : List Str) (hn : K.Nodup) (u : Str → Bool) (l : Dict Str Val) :
    ∀ (f : Str → SumVal), (Dict.keys l).Nodup → (∀ k ∈ Dict.keys l, k ∈ K) → (∀ k, k ∈ K → (f k).kind = u k) →
      (∀ kv ∈ l, kv.2.isunitsetint = u kv.1) →
      l.foldlM (sumStep (K.map fun k => (k, u k))) (K.map fun k => (k, f k)) =
        .ok (K.map fun k => (k, match Dict.get? l k with | some v => sumUpd (f k) v | none => f k)) := by
  induction l with
  | nil => intro f _ _ _ _; rfl
  | cons kv l ih =>
    intro f h1 h2 h3 h4
    obtain ⟨k0, v0⟩ := kv
    rw [Dict.keys_cons, List.nodup_cons] at h1
    rw [List.foldlM_cons, sumStep_ok K hn u f (k0, v0) (h2 k0 (by simp)) (h3 k0 (h2 k0 (by simp)))
      (h4 _ (by simp))]
    show List.foldlM _ _ l = _
    rw [ih (fun k => if k = k0 then sumUpd (f k0) v0 else f k) h1.2 (fun k hk => h2 k (by simp [hk]))
      (fun k hk => by
        by_cases hk0 : k = k0
        · subst hk0; simp only [if_true]; rw [kind_upd]; exact h3 _ hk
        · simp only [if_neg hk0]; exact h3 k hk)
      (fun kv hkv => h4 kv (by simp [hkv]))]
    congr 1
    apply List.map_congr_left
    intro k hk
    by_cases hk0 : k = k0
    · subst hk0
      have : Dict.get? l k = none := Dict.get?_eq_none.mpr h1.1
      simp [this, Dict.get?]
    · simp [Dict.get?, hk0, Ne.symm hk0]

/-- The value of `k`, for the proofs only. -/
def sumVal (a : PD) (k : Str) : Val := (Dict.get? a.vals k).getD .other

theorem sumOuter_ok (K : List Str) (hn : K.Nodup) (u : Str → Bool) (args : List PD) :
    ∀ (f : Str → SumVal), (∀ k, k ∈ K → (f k).kind = u k) →
      (∀ a ∈ args, (Dict.keys a.vals).Nodup ∧ (∀ k, k ∈ Dict.keys a.vals ↔ k ∈ K) ∧
        ∀ kv ∈ a.vals, kv.2.isunitsetint = u kv.1) →
      args.foldlM (fun st a => a.vals.foldlM (sumStep (K.map fun k => (k, u k))) st) (K.map fun k => (k, f k)) =
        .ok (K.map fun k => (k, args.foldl (fun s a => sumUpd s (sumVal a k)) (f k))) := by
  induction args with
  | nil => intro f _ _; rfl
  | cons a args ih =>
    intro f h1 h2
    obtain ⟨a1, a2, a3⟩ := h2 a (by simp)
    rw [List.foldlM_cons, sumInner_ok K hn u a.vals f a1 (fun k hk => (a2 k).mp hk) h1 a3]
    show List.foldlM _ _ args = _
    rw [ih _ (fun k hk => by
      obtain ⟨v, hv⟩ := Dict.get?_of_mem_keys ((a2 k).mpr hk)
      simp only [hv]
      rw [kind_upd]; exact h1 k hk) (fun b hb => h2 b (by simp [hb]))]
    congr 1
    apply List.map_congr_left
    intro k hk
    obtain ⟨v, hv⟩ := Dict.get?_of_mem_keys ((a2 k).mpr hk)
    simp only [hv, List.foldl_cons, sumVal, Option.getD_some]

theorem foldl_upd_list (args : List PD) (k : Str) : ∀ l : List Val,
    args.foldl (fun s a => sumUpd s (sumVal a k)) (.list l) = .list (l ++ args.map fun a => sumVal a k) := by
  induction args with
  | nil => simp
  | cons a args ih =>
    intro l
    rw [List.foldl_cons, show sumUpd (.list l) (sumVal a k) = .list (l ++ [sumVal a k]) from rfl, ih]
    simp

theorem foldl_upd_count (args : List PD) (k : Str) (n : PD → ℤ) (h : ∀ a ∈ args, sumVal a k = .setint (n a)) :
    ∀ m : ℤ, args.foldl (fun s a => sumUpd s (sumVal a k)) (.count m) = .count (m + (args.map n).sum) := by
  induction args with
  | nil => simp
  | cons a args ih =>
    intro m
    rw [List.foldl_cons, h a (by simp), show sumUpd (.count m) (.setint (n a)) = .count (m + n a) from rfl, ih (fun b hb => h b (by simp [hb]))]
    simp [add_assoc]

theorem sumUnits_ok (first : PD) (K : List Str) (hk : ∀ k ∈ K, k ∈ first.keylist) :
    ∀ acc : Dict Str Bool, (acc.keys ++ K).Nodup → K.foldlM (fun acc k => do
      let v ← getVal first.vals k
      return Dict.set acc k v.isunitsetint) acc =
      (.ok (acc ++ K.map fun k => (k, (sumVal first k).isunitsetint)) : Py _) := by
  induction K with
  | nil => intro acc _; simp [pure, Except.pure]
  | cons k K ih =>
    intro acc hn
    obtain ⟨v, hv⟩ := Dict.get?_of_mem_keys (hk k (by simp))
    have hnot : k ∉ acc.keys := by
      intro hc
      rw [List.nodup_append] at hn
      exact hn.2.2 _ hc _ (by simp) rfl
    rw [List.foldlM_cons]
    simp only [getVal, hv, bind, Except.bind, pure, Except.pure, Dict.set_of_notMem hnot]
    have := ih (fun k' hk' => hk k' (by simp [hk'])) (acc ++ [(k, v.isunitsetint)]) (by
      rw [Dict.keys_append]; simpa using hn)
    simp only [getVal, bind, Except.bind, pure, Except.pure] at this
    rw [this]
    simp [sumVal, hv]

theorem ravelElem_number {v : Val} {x : ℚ} (h : Spec.Number v x) : ravelElem v = .ok x := by
  rcases h with rfl | rfl <;> rfl

/-! ### the sum -/

/-- The integer in a set, for the proofs. -/
def intOf : Val → ℤ
  | .setint n => n
  | _ => 0

/-- The number, for the proofs. -/
def numOf : Val → ℚ
  | .scalar x => x
  | .arr [] [x] => x
  | _ => 0

theorem numOf_number {v : Val} {x : ℚ} (h : Spec.Number v x) : numOf v = x := by
  rcases h with rfl | rfl <;> rfl

theorem number_single {v : Val} {x : ℚ} (h : Spec.Number v x) : v.issingleton = true ∧ v.isunitsetint = false := by
  rcases h with rfl | rfl <;> exact ⟨rfl, rfl⟩

/-- The name built from the keys alone. -/
theorem sumName_eq (mk ck : List Str) (hc : ∀ k ∈ ck, k ≠ []) :
    sumName mk ck = margcondStr (mk.map fun k => (k, k)) (ck.map fun k => (k, k)) := by
  have e : ∀ l : List Str, Dict.vals (l.map fun k => (k, k)) = l := by
    intro l; simp [Dict.vals, Function.comp_def]
  simp only [sumName, margcondStr, e]
  rcases ck with _ | ⟨k, ck⟩
  · simp
  · rw [if_neg (by simp), if_neg]
    have := hc k (by simp)
    rcases ck with _ | ⟨k', ck⟩ <;> simp_all [List.intercalate]

section
variable {fmt : Val → Str} {first : PD} {args : List PD}

/-- A variable without values has a name that can be written on its own. -/
theorem plain_entry {d : PD} (h : d.WF fmt) (hs : ∀ k v, Dict.get? d.vals k = some v → v.issingleton = true)
    {k : Str} (hk : k ∈ d.keylist) : Spec.Entry k k ∧ k ≠ [] := by
  obtain ⟨v, hv⟩ := Dict.get?_of_mem_keys hk
  obtain ⟨_, ht⟩ := h.single k v hv (hs k v hv)
  have he : Spec.Entry k (eqText fmt k v) := by
    rcases ht with ht | ht
    · exact h.margSide.2 _ (Dict.get?_mem ht)
    · exact h.condSide.2 _ (Dict.get?_mem ht)
  have hkk : k ≠ [] ∧ '=' ∉ k := by
    rcases he.key with ⟨_, h2⟩ | ⟨h2, _⟩
    · exact h2
    · have := congrArg List.length h2
      simp [eqText] at this
  have c1 := he.comma
  have c2 := he.bar
  have c3 := he.lparen
  have c4 := he.rparen
  simp only [eqText, List.mem_append, not_or] at c1 c2 c3 c4
  exact ⟨entry_plain hkk.1 c1.1 c2.1 c3.1 c4.1 hkk.2, hkk.1⟩

theorem Spec.Summable.first_mem (h : Spec.Summable fmt first args) : first ∈ args :=
  List.mem_of_mem_head? h.head

theorem Spec.Summable.single (h : Spec.Summable fmt first args) {a : PD} (ha : a ∈ args) (k : Str) (v : Val)
    (hv : Dict.get? a.vals k = some v) : v.issingleton = true := by
  have hk : k ∈ first.keylist := by
    have : k ∈ a.keylist := Dict.mem_keys_of_get? hv
    rw [PD.keylist, (h.wf _ h.first_mem).keys, h.marg a ha, h.cond a ha, ← (h.wf a ha).keys]
    exact this
  rcases h.kinds k hk with h1 | h1
  · obtain ⟨n, hn⟩ := h1 a ha
    rw [Spec.CountAt, hv] at hn
    simp only [Option.some.injEq] at hn
    subst hn; rfl
  · obtain ⟨x, v', hv', hx⟩ := h1 a ha
    rw [hv] at hv'
    simp only [Option.some.injEq] at hv'
    subst hv'
    exact (number_single hx).1

/-- The values of the sum. -/
def sumV (args : List PD) (u : Bool) (k : Str) : Val :=
  if u then .setint (args.map fun a => intOf (sumVal a k)).sum
  else .arr [args.length] (args.map fun a => numOf (sumVal a k))

theorem Spec.Summable.loop (h : Spec.Summable fmt first args) :
    (args.foldlM (fun st a => a.vals.foldlM (sumStep ((first.marg.keys ++ first.cond.keys).map
        fun k => (k, (sumVal first k).isunitsetint))) st)
      ((first.marg.keys ++ first.cond.keys).map fun k => (k, sumInit (sumVal first k).isunitsetint)) >>=
      fun st => st.mapM sumFinal) =
    .ok ((first.marg.keys ++ first.cond.keys).map fun k => (k, sumV args (sumVal first k).isunitsetint k)) := by
  have hf := h.wf _ h.first_mem
  have hnd : (first.marg.keys ++ first.cond.keys).Nodup := by
    rw [List.nodup_append]
    exact ⟨hf.margSide.1, hf.condSide.1, by rintro k hk k' hk' rfl; exact hf.disj k hk hk'⟩
  have hin : ∀ a ∈ args, ∀ k, k ∈ Dict.keys a.vals ↔ k ∈ first.marg.keys ++ first.cond.keys := by
    intro a ha k
    rw [(h.wf a ha).keys, List.mem_append, h.marg a ha, h.cond a ha]
  have hkind : ∀ k ∈ first.keylist, ∀ a ∈ args, (sumVal a k).isunitsetint = (sumVal first k).isunitsetint := by
    intro k hk a ha
    rcases h.kinds k hk with h1 | h1
    · obtain ⟨n, hn⟩ := h1 a ha
      obtain ⟨m, hm⟩ := h1 first h.first_mem
      rw [Spec.CountAt] at hn hm
      simp [sumVal, hn, hm, Val.isunitsetint]
    · obtain ⟨x, v, hv, hx⟩ := h1 a ha
      obtain ⟨y, w, hw, hy⟩ := h1 first h.first_mem
      simp [sumVal, hv, hw, (number_single hx).2, (number_single hy).2]
  rw [sumOuter_ok _ hnd (fun k => (sumVal first k).isunitsetint) args
    (fun k => sumInit (sumVal first k).isunitsetint)
    (by intro k _; unfold sumInit; split_ifs with hu <;> simp [SumVal.kind, hu])
    (fun a ha => ⟨(h.wf a ha).nodup, hin a ha, by
      rintro ⟨k, v⟩ hkv
      have hg := Dict.get?_of_mem (h.wf a ha).nodup hkv
      have := hkind k ((hin first h.first_mem k).mpr ((hin a ha k).mp (Dict.mem_keys_of_get? hg))) a ha
      simpa [sumVal, hg] using this⟩)]
  show List.mapM sumFinal _ = _
  rw [show ((first.marg.keys ++ first.cond.keys).map fun k => (k, sumV args (sumVal first k).isunitsetint k)) =
    ((first.marg.keys ++ first.cond.keys).map fun k => (k, args.foldl (fun s a => sumUpd s (sumVal a k))
      (sumInit (sumVal first k).isunitsetint))).map (fun ks => (ks.1, sumV args (sumVal first ks.1).isunitsetint ks.1))
    from by rw [List.map_map]; rfl]
  apply mapM_ok
  intro ks hks
  obtain ⟨k, hk, rfl⟩ := List.mem_map.mp hks
  have hk' : k ∈ first.keylist := (hin first h.first_mem k).mpr hk
  simp only
  rcases h.kinds k hk' with h1 | h1
  · have hval : ∀ a ∈ args, sumVal a k = .setint (intOf (sumVal a k)) := by
      intro a ha
      obtain ⟨n, hn⟩ := h1 a ha
      rw [Spec.CountAt] at hn
      simp [sumVal, hn, intOf]
    have hu : (sumVal first k).isunitsetint = true := by rw [hval first h.first_mem]; rfl
    rw [hu]
    simp only [sumInit, if_true]
    rw [foldl_upd_count args k (fun a => intOf (sumVal a k)) hval]
    simp [sumFinal, sumV]
  · have hval : ∀ a ∈ args, ravelElem (sumVal a k) = .ok (numOf (sumVal a k)) := by
      intro a ha
      obtain ⟨x, v, hv, hx⟩ := h1 a ha
      simp [sumVal, hv, ravelElem_number hx, numOf_number hx]
    have hu : (sumVal first k).isunitsetint = false := by
      obtain ⟨x, v, hv, hx⟩ := h1 first h.first_mem
      simp [sumVal, hv, (number_single hx).2]
    rw [hu]
    simp only [sumInit, Bool.false_eq_true, if_false]
    rw [foldl_upd_list]
    have hm : (List.map (fun a => sumVal a k) args).mapM ravelElem = .ok (args.map fun a => numOf (sumVal a k)) := by
      rw [show (args.map fun a => numOf (sumVal a k)) = (List.map (fun a => sumVal a k) args).map numOf from by
        rw [List.map_map]; rfl]
      apply mapM_ok
      intro v hv
      obtain ⟨a, ha, rfl⟩ := List.mem_map.mp hv
      exact hval a ha
    simp [sumFinal, sumV, hm, bind, Except.bind, pure, Except.pure]

/-- The text of a variable in the name of the sum. -/
def sumText (fmt : Val → Str) (args : List PD) (first : PD) (k : Str) : Str :=
  if (sumVal first k).isunitsetint then eqText fmt k (sumV args true k) else k

theorem Spec.Summable.build (h : Spec.Summable fmt first args)
    (hspec : ∃ k ∈ first.keylist, ∀ a ∈ args, ∃ x, Spec.NumberAt a k x)
    (htext : ∀ k ∈ first.keylist, ∀ n, Spec.CountAt first k n → ∀ m, Spec.Entry k (eqText fmt k (.setint m))) :
    BuildArgs fmt (first.marg.keys.map fun k => (k, sumText fmt args first k))
      (first.cond.keys.map fun k => (k, sumText fmt args first k))
      ((first.marg.keys ++ first.cond.keys).map fun k => (k, sumV args (sumVal first k).isunitsetint k))
      ((first.marg.keys ++ first.cond.keys).map fun k =>
        (k, if (sumVal first k).isunitsetint then none else some 0)) [args.length] := by
  have hf := h.wf _ h.first_mem
  have hnd : (first.marg.keys ++ first.cond.keys).Nodup := by
    rw [List.nodup_append]
    exact ⟨hf.margSide.1, hf.condSide.1, by rintro k hk k' hk' rfl; exact hf.disj k hk hk'⟩
  have hin : ∀ k, k ∈ first.keylist ↔ k ∈ first.marg.keys ++ first.cond.keys := by
    intro k; rw [List.mem_append]; exact hf.keys k
  have hpos : 0 < args.length := List.length_pos_of_mem h.first_mem
  have hentry : ∀ k, k ∈ first.keylist → Spec.Entry k (sumText fmt args first k) := by
    intro k hk
    unfold sumText
    split_ifs with hu
    · obtain ⟨v, hv⟩ := Dict.get?_of_mem_keys hk
      simp only [sumVal, hv, Option.getD_some] at hu
      cases v <;> simp [Val.isunitsetint] at hu
      exact htext k hk _ hv _
    · exact (plain_entry hf (h.single h.first_mem) hk).1
  have hget : ∀ {V : Type} (f : Str → V) (k : Str) (v : V),
      Dict.get? ((first.marg.keys ++ first.cond.keys).map fun k => (k, f k)) k = some v →
        k ∈ first.marg.keys ++ first.cond.keys ∧ v = f k := by
    intro V f k v hv
    have hk := Dict.mem_keys_of_get? hv
    rw [keys_mapKeys] at hk
    rw [get?_mapKeys _ _ _ hk] at hv
    exact ⟨hk, (Option.some.inj hv).symm⟩
  refine { ne := ?_, nodup := ?_, allowed := ?_, margSide := ?_, condSide := ?_, disj := ?_, keys := ?_,
           dimNodup := ?_, dimKeys := ?_, single := ?_, array := ?_, cover := ?_ }
  · obtain ⟨k, hk, _⟩ := hspec
    intro hc
    have := (hin k).mp hk
    rw [List.map_eq_nil_iff] at hc
    rw [hc] at this; simp at this
  · rw [keys_mapKeys]; exact hnd
  · intro k hk
    rw [keys_mapKeys] at hk
    exact hf.allowed k ((hin k).mpr hk)
  · refine ⟨by rw [keys_mapKeys]; exact hf.margSide.1, ?_⟩
    intro kv hkv
    obtain ⟨k, hk, rfl⟩ := List.mem_map.mp hkv
    exact hentry k ((hf.keys k).mpr (Or.inl hk))
  · refine ⟨by rw [keys_mapKeys]; exact hf.condSide.1, ?_⟩
    intro kv hkv
    obtain ⟨k, hk, rfl⟩ := List.mem_map.mp hkv
    exact hentry k ((hf.keys k).mpr (Or.inr hk))
  · intro k hk
    rw [keys_mapKeys] at hk ⊢
    exact hf.disj k hk
  · intro k
    rw [keys_mapKeys, keys_mapKeys, keys_mapKeys, List.mem_append]
  · rw [keys_mapKeys]; exact hnd
  · intro k hk
    rw [keys_mapKeys] at hk ⊢
    exact hk
  · intro k v hv hs
    obtain ⟨hk, rfl⟩ := hget _ k v hv
    have hu : (sumVal first k).isunitsetint = true := by
      by_contra hc
      rw [Bool.not_eq_true] at hc
      simp [sumV, hc, Val.issingleton] at hs
    refine ⟨by rw [get?_mapKeys _ _ _ hk, hu]; rfl, ?_⟩
    rw [List.mem_append] at hk
    rcases hk with hk | hk
    · left; rw [get?_mapKeys _ _ _ hk]; simp [sumText, hu]
    · right; rw [get?_mapKeys _ _ _ hk]; simp [sumText, hu]
  · intro k v hv hs
    obtain ⟨hk, rfl⟩ := hget _ k v hv
    have hu : (sumVal first k).isunitsetint = false := by
      by_contra hc
      rw [Bool.not_eq_false] at hc
      simp [sumV, hc, Val.issingleton] at hs
    refine ⟨[args.length], args.map fun a => numOf (sumVal a k), 0, by simp [sumV, hu], by simp, ?_, by simp⟩
    rw [get?_mapKeys _ _ _ hk, hu]; rfl
  · intro a ha
    have : a = 0 := by simpa using ha
    subst this
    obtain ⟨k, hk, hx⟩ := hspec
    obtain ⟨x, v, hv, hx⟩ := hx first h.first_mem
    refine ⟨k, ?_⟩
    rw [get?_mapKeys _ _ _ ((hin k).mp hk)]
    simp [sumVal, hv, (number_single hx).2]

theorem Spec.Summable.accepted (h : Spec.Summable fmt first args) :
    summate fmt args = (sumSingletons fmt first args).map some := by
  obtain ⟨rest, rfl⟩ : ∃ rest, args = first :: rest := by
    rcases args with _ | ⟨a, rest⟩
    · have := h.head; simp at this
    · have := h.head; simp only [List.head?_cons, Option.some.injEq] at this
      subst this; exact ⟨rest, rfl⟩
  dsimp only [summate]
  rw [if_neg (not_not.mpr fun a ha => h.scale a (by simp [ha])),
    if_neg (not_not.mpr fun a ha => ⟨h.marg a (by simp [ha]), h.cond a (by simp [ha])⟩), if_pos]
  intro a ha
  rw [(h.wf a ha).is, List.all_eq_true]
  rintro ⟨k, v⟩ hkv
  exact h.single ha k v (Dict.get?_of_mem (h.wf a ha).nodup hkv)

/-- C26, proved part: distributions of scalars, at least one variable of which has
values, are listed along a new axis. -/
theorem C26_summate_partial (fmt : Val → Str) (first : PD) (args : List PD) (h : Spec.Summable fmt first args)
    (hspec : ∃ k ∈ first.keylist, ∀ a ∈ args, ∃ x, Spec.NumberAt a k x)
    (htext : ∀ k ∈ first.keylist, ∀ n, Spec.CountAt first k n → ∀ m, Spec.Entry k (eqText fmt k (.setint m))) :
    ∃ r, summate fmt args = .ok (some r) ∧ r.WF fmt ∧ Spec.Sum first args r := by
  have hf := h.wf _ h.first_mem
  have hnd : (first.marg.keys ++ first.cond.keys).Nodup := by
    rw [List.nodup_append]
    exact ⟨hf.margSide.1, hf.condSide.1, by rintro k hk k' hk' rfl; exact hf.disj k hk hk'⟩
  have hin : ∀ k, k ∈ first.keylist ↔ k ∈ first.marg.keys ++ first.cond.keys := by
    intro k; rw [List.mem_append]; exact hf.keys k
  have hb := h.build hspec htext
  obtain ⟨r, r1, r2, r3, r4, r5, r6, r7, r8, r9⟩ := pdInit_ok hb (sumProb args) rfl first.pscale.spec first.pscale
    hf.stable
  have hplain : ∀ k ∈ first.keylist, Spec.Entry k k ∧ k ≠ [] := fun k hk =>
    plain_entry hf (h.single h.first_mem) hk
  have hside : ∀ K : List Str, K.Nodup → (∀ k ∈ K, k ∈ first.keylist) → Spec.Side (K.map fun k => (k, k)) := by
    intro K hK hk
    refine ⟨by rw [keys_mapKeys]; exact hK, ?_⟩
    intro kv hkv
    obtain ⟨k, hkk, rfl⟩ := List.mem_map.mp hkv
    exact (hplain k (hk k hkk)).1
  have hname : pdInit fmt (sumName first.marg.keys first.cond.keys)
      ((first.marg.keys ++ first.cond.keys).map fun k => (k, sumV args (sumVal first k).isunitsetint k))
      (some ((first.marg.keys ++ first.cond.keys).map fun k =>
        (k, if (sumVal first k).isunitsetint then none else some 0))) (sumProb args) first.pscale.spec = .ok r := by
    rw [sumName_eq _ _ fun k hk => (hplain k ((hf.keys k).mpr (Or.inr hk))).2,
      pdInit_named hb (hside _ hf.margSide.1 fun k hk => (hf.keys k).mpr (Or.inl hk))
        (hside _ hf.condSide.1 fun k hk => (hf.keys k).mpr (Or.inr hk)) (by rw [keys_mapKeys, keys_mapKeys])
        (by rw [keys_mapKeys, keys_mapKeys]) ?_, r1]
    intro k v hv hs
    have hk := Dict.mem_keys_of_get? hv
    rw [keys_mapKeys] at hk
    rw [get?_mapKeys _ _ _ hk] at hv
    have hu : (sumVal first k).isunitsetint = false := by
      by_contra hc
      rw [Bool.not_eq_false] at hc
      simp only [Option.some.injEq] at hv
      subst hv
      simp [sumV, hc, Val.issingleton] at hs
    have aux : ∀ K : List Str, Dict.get? (K.map fun k => (k, k)) k =
        Dict.get? (K.map fun k => (k, sumText fmt args first k)) k := by
      intro K
      by_cases hK : k ∈ K
      · rw [get?_mapKeys _ _ _ hK, get?_mapKeys _ _ _ hK]; simp [sumText, hu]
      · rw [Dict.get?_eq_none.mpr (by rw [keys_mapKeys]; exact hK),
          Dict.get?_eq_none.mpr (by rw [keys_mapKeys]; exact hK)]
    exact ⟨aux _, aux _⟩
  have hunits : sumUnits first (first.marg.keys ++ first.cond.keys) =
      .ok ((first.marg.keys ++ first.cond.keys).map fun k => (k, (sumVal first k).isunitsetint)) := by
    have := sumUnits_ok first (first.marg.keys ++ first.cond.keys) (fun k hk => (hin k).mpr hk) [] (by simpa using hnd)
    simpa [sumUnits] using this
  refine ⟨r, ?_, r2, ?_⟩
  · rw [h.accepted]
    have hloop := h.loop
    have : sumSingletons fmt first args = .ok r := by
      unfold sumSingletons
      simp only [hunits, bind, Except.bind, List.map_map, Function.comp_def] at hloop ⊢
      rcases hst : args.foldlM (fun st a => a.vals.foldlM (sumStep ((first.marg.keys ++ first.cond.keys).map
        fun k => (k, (sumVal first k).isunitsetint))) st)
        ((first.marg.keys ++ first.cond.keys).map fun k => (k, sumInit (sumVal first k).isunitsetint)) with e | st
      · rw [hst] at hloop; simp at hloop
      · rw [hst] at hloop ⊢
        simp only at hloop ⊢
        rw [hloop]
        exact hname
    rw [this]
    rfl
  · have hval : ∀ k, r.values k = (Dict.get? ((first.marg.keys ++ first.cond.keys).map fun k =>
        (k, sumV args (sumVal first k).isunitsetint k)) k).map Val.flat := hb.values r5
    refine ⟨by rw [r3, keys_mapKeys], by rw [r4, keys_mapKeys], ?_, r9, r7, ?_, ?_, ?_⟩
    · show Dict.keys r.vals = _
      rw [r5, Dict.keys_map, keys_mapKeys]
    · intro k hnum hk
      have hk' := (hin k).mp hk
      obtain ⟨x, v, hv, hx⟩ := hnum first h.first_mem
      have hu : (sumVal first k).isunitsetint = false := by simp [sumVal, hv, (number_single hx).2]
      refine ⟨by rw [r6, get?_mapKeys _ _ _ hk', hu]; rfl, args.map fun a => numOf (sumVal a k), ?_, by simp, ?_⟩
      · rw [hval, get?_mapKeys _ _ _ hk', hu]
        simp [sumV, Val.flat]
      · intro i a hi
        obtain ⟨y, w, hw, hy⟩ := hnum a (List.mem_of_getElem? hi)
        refine ⟨y, ⟨w, hw, hy⟩, ?_⟩
        rw [List.getElem?_map, hi]
        simp [sumVal, hw, numOf_number hy]
    · intro k n hcnt hk
      have hk' := (hin k).mp hk
      have hu : (sumVal first k).isunitsetint = true := by
        have := hcnt first h.first_mem
        rw [Spec.CountAt] at this
        simp [sumVal, this, Val.isunitsetint]
      rw [r5, Dict.get?_map, get?_mapKeys _ _ _ hk', hu]
      have : (args.map fun a => intOf (sumVal a k)) = args.map n := by
        apply List.map_congr_left
        intro a ha
        have := hcnt a ha
        rw [Spec.CountAt] at this
        simp [sumVal, this, intOf]
      simp [sumV, placeVal, Val.issingleton, this]
    · intro i a hi
      rw [PD.at, PD.at, r8, r9, h.scale a (List.mem_of_getElem? hi)]
      congr 1
      show ((args.map fun a => a.prob.get [])[i]?).getD 0 = _
      rw [List.getElem?_map, hi]
      rfl

/-- C26: nothing to sum. -/
theorem C26_none (fmt : Val → Str) : summate fmt [] = .ok none := rfl

/-! ### refusals -/

/-- C26: distributions of different scales, or with different variables or
conditions (or these in another order), are refused. -/
theorem C26_incompatible_raises (fmt : Val → Str) (args : List PD) (a b : PD) (ha : a ∈ args) (hb : b ∈ args)
    (h : a.pscale ≠ b.pscale ∨ a.marg.keys ≠ b.marg.keys ∨ a.cond.keys ≠ b.cond.keys) :
    Raises (summate fmt args) := by
  rcases args with _ | ⟨first, rest⟩
  · simp at ha
  dsimp only [summate]
  split_ifs with h1 h2 h3 h4
  · exfalso
    have key : ∀ x ∈ first :: rest, first.pscale = x.pscale ∧ first.marg.keys = x.marg.keys ∧
        first.cond.keys = x.cond.keys := by
      intro x hx
      simp only [List.mem_cons] at hx
      rcases hx with rfl | hx
      · exact ⟨rfl, rfl, rfl⟩
      · exact ⟨h1 x hx, h2 x hx⟩
    obtain ⟨a1, a2, a3⟩ := key a ha
    obtain ⟨b1, b2, b3⟩ := key b hb
    rcases h with h | h | h
    · exact h (a1.symm.trans b1)
    · exact h (a2.symm.trans b2)
    · exact h (a3.symm.trans b3)
  · exact ⟨_, rfl⟩
  · exact ⟨_, rfl⟩
  · exact ⟨_, rfl⟩
  · exact ⟨_, rfl⟩

/-- C26: if any of the distributions is not one of scalars, the sum is refused,
compatible or not. -/
theorem C26_arrays_raise (fmt : Val → Str) (args : List PD) (a : PD) (ha : a ∈ args)
    (h : a.dist.issingleton = false) : Raises (summate fmt args) := by
  rcases args with _ | ⟨first, rest⟩
  · simp at ha
  dsimp only [summate]
  split_ifs with h1 h2 h3 h4
  · have := h3 a ha
    rw [h] at this; simp at this
  · exact ⟨_, rfl⟩
  · exact ⟨_, rfl⟩
  · exact ⟨_, rfl⟩
  · exact ⟨_, rfl⟩

theorem foldlM_raises {α σ : Type _} {f : σ → α → Py σ} {l : List α} {x : α} (hx : x ∈ l)
    (h : ∀ s, Raises (f s x)) : ∀ s, Raises (l.foldlM f s) := by
  induction l with
  | nil => simp at hx
  | cons y l ih =>
    intro s
    rw [List.foldlM_cons]
    rcases hy : f s y with e | s'
    · exact ⟨e, rfl⟩
    · simp only [List.mem_cons] at hx
      rcases hx with rfl | hx
      · obtain ⟨e, he⟩ := h s
        rw [hy] at he; simp at he
      · exact ih hx s'

/-- C26: a variable that is a count in one distribution and a value in another is
refused. -/
theorem C26_mixed_raises (fmt : Val → Str) (args : List PD) (a b : PD) (ha : a ∈ args) (hb : b ∈ args)
    (hwf : ∀ a ∈ args, a.WF fmt) (k : Str) (n : ℤ) (x : ℚ) (h1 : Spec.CountAt a k n) (h2 : Spec.NumberAt b k x) :
    Raises (summate fmt args) := by
  rcases args with _ | ⟨first, rest⟩
  · simp at ha
  dsimp only [summate]
  split_ifs with g1 g2 g3 g4
  · have hf := hwf first (by simp)
    have hnd : (first.marg.keys ++ first.cond.keys).Nodup := by
      rw [List.nodup_append]
      exact ⟨hf.margSide.1, hf.condSide.1, by rintro k hk k' hk' rfl; exact hf.disj k hk hk'⟩
    have hin : ∀ k, k ∈ first.keylist ↔ k ∈ first.marg.keys ++ first.cond.keys := by
      intro k; rw [List.mem_append]; exact hf.keys k
    have hk : k ∈ first.marg.keys ++ first.cond.keys := by
      have hka : k ∈ a.keylist := Dict.mem_keys_of_get? h1
      simp only [List.mem_cons] at ha
      rcases ha with rfl | ha
      · exact (hin k).mp hka
      · rw [List.mem_append, (g2 a ha).1, (g2 a ha).2, ← (hwf a (by simp [ha])).keys]
        exact hka
    have hunits := sumUnits_ok first (first.marg.keys ++ first.cond.keys) (fun k hk => (hin k).mpr hk) []
      (by simpa using hnd)
    have hunits : sumUnits first (first.marg.keys ++ first.cond.keys) =
      .ok ((first.marg.keys ++ first.cond.keys).map fun k => (k, (sumVal first k).isunitsetint)) := by
      simpa [sumUnits] using hunits
    obtain ⟨v, hv, hx⟩ := h2
    have hbad : ∃ c ∈ first :: rest, ∃ w, Dict.get? c.vals k = some w ∧
        w.isunitsetint ≠ (sumVal first k).isunitsetint := by
      rcases hu : (sumVal first k).isunitsetint with _ | _
      · exact ⟨a, ha, _, h1, by simp [Val.isunitsetint]⟩
      · exact ⟨b, hb, v, hv, by rw [(number_single hx).2]; simp⟩
    obtain ⟨c, hc, w, hw, hne⟩ := hbad
    have hstep : ∀ st, Raises (sumStep ((first.marg.keys ++ first.cond.keys).map
        fun k => (k, (sumVal first k).isunitsetint)) st (k, w)) := by
      intro st
      unfold sumStep
      simp only [get?_mapKeys _ _ _ hk]
      rcases hu : (sumVal first k).isunitsetint with _ | _
      · rw [hu] at hne
        cases w <;> simp [Val.isunitsetint] at hne
        rcases Dict.get? st k with _ | _ | _ <;> exact ⟨_, rfl⟩
      · rw [hu] at hne
        rcases Dict.get? st k with _ | _ | _ <;> cases w <;> simp [Val.isunitsetint] at hne <;> exact ⟨_, rfl⟩
    obtain ⟨e, he⟩ := foldlM_raises (f := fun st (a : PD) => a.vals.foldlM (sumStep ((first.marg.keys ++ first.cond.keys).map
        fun k => (k, (sumVal first k).isunitsetint))) st) hc
      (fun s => foldlM_raises (Dict.get?_mem hw) hstep s)
      (((first.marg.keys ++ first.cond.keys).map fun k => (k, (sumVal first k).isunitsetint)).map
        fun kv => (kv.1, sumInit kv.2))
    refine ⟨e, ?_⟩
    unfold sumSingletons
    simp only [hunits, bind, Except.bind, he]
    rfl
  · exact ⟨_, rfl⟩
  · exact ⟨_, rfl⟩
  · exact ⟨_, rfl⟩
  · exact ⟨_, rfl⟩

/-- C26: distributions of counts only are always refused (the list of their
probabilities does not fit a distribution without axes). -/
theorem C26_counts_raise (fmt : Val → Str) (first : PD) (args : List PD) (h : Spec.Summable fmt first args)
    (hc : ∀ k ∈ first.keylist, ∀ a ∈ args, ∃ n, Spec.CountAt a k n) : Raises (summate fmt args) := by
  have hf := h.wf _ h.first_mem
  have hnd : (first.marg.keys ++ first.cond.keys).Nodup := by
    rw [List.nodup_append]
    exact ⟨hf.margSide.1, hf.condSide.1, by rintro k hk k' hk' rfl; exact hf.disj k hk hk'⟩
  have hin : ∀ k, k ∈ first.keylist ↔ k ∈ first.marg.keys ++ first.cond.keys := by
    intro k; rw [List.mem_append]; exact hf.keys k
  rw [h.accepted]
  rcases hr : sumSingletons fmt first args with e | r
  · exact ⟨e, rfl⟩
  exfalso
  have hunits : sumUnits first (first.marg.keys ++ first.cond.keys) =
      .ok ((first.marg.keys ++ first.cond.keys).map fun k => (k, (sumVal first k).isunitsetint)) := by
    have := sumUnits_ok first (first.marg.keys ++ first.cond.keys) (fun k hk => (hin k).mpr hk) [] (by simpa using hnd)
    simpa [sumUnits] using this
  have hloop := h.loop
  unfold sumSingletons at hr
  simp only [hunits, bind, Except.bind, List.map_map, Function.comp_def] at hloop hr
  rcases hst : args.foldlM (fun st a => a.vals.foldlM (sumStep ((first.marg.keys ++ first.cond.keys).map
    fun k => (k, (sumVal first k).isunitsetint))) st)
    ((first.marg.keys ++ first.cond.keys).map fun k => (k, sumInit (sumVal first k).isunitsetint)) with e | st
  · rw [hst] at hloop; simp at hloop
  · rw [hst] at hloop hr
    simp only at hloop hr
    rw [hloop] at hr
    simp only at hr
    obtain ⟨p1, p2, _⟩ := pdInit_inv hr
    have hne : ((first.marg.keys ++ first.cond.keys).map fun k =>
        (k, sumV args (sumVal first k).isunitsetint k)) ≠ [] := by
      intro hc
      rw [List.map_eq_nil_iff] at hc
      rcases hv : first.vals with _ | ⟨⟨k, v⟩, l⟩
      · exact hf.ne hv
      · have := (hin k).mp (by rw [PD.keylist]; change k ∈ Dict.keys first.vals; rw [hv]; simp)
        rw [hc] at this; simp at this
    obtain ⟨_, _, _, _, _, _, _, _, hsing⟩ := distDims_inv (by rw [keys_mapKeys]; exact hnd) hne p1
    have : r.dist.issingleton = true := by
      rw [hsing, List.all_eq_true]
      intro kv hkv
      simp only [fixVals, List.mem_map] at hkv
      obtain ⟨kv', ⟨k, hk, rfl⟩, rfl⟩ := hkv
      obtain ⟨n, hn⟩ := hc k ((hin k).mpr hk) first h.first_mem
      rw [Spec.CountAt] at hn
      simp [sumVal, hn, Val.isunitsetint, sumV, Val.fixNone, Val.issingleton]
    rw [probOK, if_pos this] at p2
    simp [Arr.isscalar, sumProb] at p2

/-- C26 as intended. -/
def C26_claim : Prop :=
  ∀ (fmt : Val → Str) (first : PD) (args : List PD), Spec.Summable fmt first args →
    (∀ k ∈ first.keylist, ∀ n, Spec.CountAt first k n → ∀ m, Spec.Entry k (eqText fmt k (.setint m))) →
    ∃ r, summate fmt args = .ok (some r) ∧ Spec.Sum first args r

/-- p(x=v, n={1}) with the value of x and the probability given. -/
noncomputable def samplePD (v : ℚ) (p : ℝ) : PD :=
  ⟨"x=0,n=0".toList, [(['x'], "x=0".toList), (['n'], "n=0".toList)], [],
   ⟨[(['x'], .scalar v), (['n'], .setint 1)], [(['x'], none), (['n'], none)], 0, [], [], 1, [true, true], true⟩,
   ⟨[], fun _ => p⟩, .lin 1⟩

theorem samplePD_wf (v : ℚ) (p : ℝ) : (samplePD v p).WF (fun _ => ['0']) :=
  PD.wf_of_check rfl rfl (by simp [samplePD, PScale.spec, evalPscale_one])

/-- p(n={3}). -/
noncomputable def countPD : PD :=
  ⟨"n=0".toList, [(['n'], "n=0".toList)], [],
   ⟨[(['n'], .setint 3)], [(['n'], none)], 0, [], [], 1, [true], true⟩, ⟨[], fun _ => 1⟩, .lin 1⟩

theorem countPD_wf : countPD.WF (fun _ => ['0']) :=
  PD.wf_of_check rfl rfl (by simp [countPD, PScale.spec, evalPscale_one])

theorem countPD_summable : Spec.Summable (fun _ => ['0']) countPD [countPD, countPD] where
  head := rfl
  wf := by simp [countPD_wf]
  scale := by simp
  marg := by simp
  cond := by simp
  kinds := by
    intro k hk
    left
    have : k = ['n'] := by simpa [countPD, PD.keylist, Dict.keys] using hk
    subst this
    intro a ha
    have : a = countPD := by simpa using ha
    subst this
    exact ⟨3, rfl⟩

/-- C26: the sum of distributions of counts is refused. -/
theorem C26_claim_fails : ¬ C26_claim := by
  intro h
  have hk : ∀ k ∈ countPD.keylist, k = ['n'] := by
    intro k hk; simpa [countPD, PD.keylist, Dict.keys] using hk
  obtain ⟨r, hr, _⟩ := h (fun _ => ['0']) countPD [countPD, countPD] countPD_summable (by
    intro k hk' n _ m
    rw [hk k hk']
    show Spec.Entry ['n'] "n=0".toList
    decide)
  obtain ⟨e, he⟩ := C26_counts_raise (fun _ => ['0']) countPD [countPD, countPD] countPD_summable (by
    intro k hk' a ha
    rw [hk k hk']
    have : a = countPD := by simpa using ha
    subst this
    exact ⟨3, rfl⟩)
  rw [hr] at he
  simp at he

/-- Non-vacuity of `C26_summate_partial`: three samples of x, the second equal to
the third, and counts of n adding up. -/
example (p q s : ℝ) : ∃ r, summate (fun _ => ['0']) [samplePD 5 p, samplePD 2 q, samplePD 2 s] = .ok (some r) ∧
    r.values ['x'] = some (.arr [3] [5, 2, 2]) ∧ Dict.get? r.vals ['n'] = some (.setint 3) ∧
    r.at [0] = p ∧ r.at [1] = q ∧ r.at [2] = s := by
  have hkeys : ∀ (v : ℚ) (p : ℝ) k, k ∈ (samplePD v p).keylist → k = ['x'] ∨ k = ['n'] := by
    intro v p k hk; simpa [samplePD, PD.keylist, Dict.keys] using hk
  have hx : ∀ a ∈ [samplePD 5 p, samplePD 2 q, samplePD 2 s], ∃ x, Spec.NumberAt a ['x'] x := by
    intro a ha
    simp only [List.mem_cons, List.not_mem_nil, or_false] at ha
    rcases ha with rfl | rfl | rfl
    · exact ⟨5, _, rfl, Or.inl rfl⟩
    · exact ⟨2, _, rfl, Or.inl rfl⟩
    · exact ⟨2, _, rfl, Or.inl rfl⟩
  have hn : ∀ a ∈ [samplePD 5 p, samplePD 2 q, samplePD 2 s], Spec.CountAt a ['n'] 1 := by
    intro a ha
    simp only [List.mem_cons, List.not_mem_nil, or_false] at ha
    rcases ha with rfl | rfl | rfl <;> rfl
  obtain ⟨r, h1, _, h2⟩ := C26_summate_partial (fun _ => ['0']) (samplePD 5 p)
    [samplePD 5 p, samplePD 2 q, samplePD 2 s]
    { head := rfl
      wf := by simp [samplePD_wf]
      scale := by simp [samplePD]
      marg := by simp [samplePD]
      cond := by simp [samplePD]
      kinds := by
        intro k hk
        rcases hkeys _ _ k hk with rfl | rfl
        · exact Or.inr hx
        · exact Or.inl fun a ha => ⟨1, hn a ha⟩ }
    ⟨['x'], by simp [samplePD, PD.keylist, Dict.keys], hx⟩ (by
      intro k hk n hc m
      rcases hkeys _ _ k hk with rfl | rfl
      · simp [Spec.CountAt, samplePD, Dict.get?] at hc
      · show Spec.Entry ['n'] "n=0".toList
        decide)
  have h0 : ∀ (v : ℚ) (p : ℝ), (samplePD v p).at [] = p := by intro v p; simp [PD.at, samplePD, Spec.value]
  refine ⟨r, h1, ?_, ?_, ?_, ?_, ?_⟩
  · obtain ⟨_, xs, hxs, hl, hi⟩ := h2.numbers ['x'] hx (by simp [samplePD, PD.keylist, Dict.keys])
    have num : ∀ (v x : ℚ) (p : ℝ), Spec.NumberAt (samplePD v p) ['x'] x → x = v := by
      rintro v x p ⟨w, hw, hx⟩
      have : w = .scalar v := by
        have : Dict.get? (samplePD v p).vals ['x'] = some (.scalar v) := rfl
        rw [this] at hw; simpa using hw.symm
      subst this
      rcases hx with hx | hx <;> simpa using hx.symm
    obtain ⟨x0, a0, b0⟩ := hi 0 _ rfl
    obtain ⟨x1, a1, b1⟩ := hi 1 _ rfl
    obtain ⟨x2, a2, b2⟩ := hi 2 _ rfl
    have := num _ _ _ a0
    have := num _ _ _ a1
    have := num _ _ _ a2
    subst_vars
    rw [hxs]
    congr 2
    match xs, hl with
    | [y0, y1, y2], _ => simp at b0 b1 b2; simp [b0, b1, b2]
  · have := h2.counts ['n'] (fun _ => 1) hn (by simp [samplePD, PD.keylist, Dict.keys])
    simpa using this
  · rw [h2.entry 0 _ rfl, h0]
  · rw [h2.entry 1 _ rfl, h0]
  · rw [h2.entry 2 _ rfl, h0]

end

end Probayes
