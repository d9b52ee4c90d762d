/-
Property C46: order and delta mappings route arguments as declared.
-/
import Verif.Model.Expression
import Mathlib.Data.List.Nodup
import Mathlib.Data.List.Perm.Basic
import Mathlib.Data.List.Range
import Mathlib.Tactic.Linarith

namespace Probayes

/-! ### Specification -/

/-- The keyword declared as source of keyword `t`. -/
def Spec.source (m : Dict Str Route) (t : Str) : Option Str :=
  match m with
  | [] => none
  | (k, .key t') :: m => if t' = t then some k else Spec.source m t
  | _ :: m => Spec.source m t

/-- The keywords declared as targets. -/
def Spec.targets (m : Dict Str Route) : List Str :=
  m.filterMap fun kr => match kr.2 with
    | .key t => some t
    | _ => none

/-- The call `c` made for positional arguments `args` and keywords `kwds`: the
given positional arguments come first, every declared position and keyword holds
its declared value, consumed keywords are gone unless declared as target, all other
keywords are passed on unchanged, and there is nothing else. -/
structure Spec.Routed {V : Type} (m : Dict Str Route) (consumed : List Str) (value : Str → V)
    (args : List (PArg V)) (kwds : Dict Str V) (c : Call V) : Prop where
  prefix_ : c.args.take args.length = args
  length : c.args.length = args.length + (Route.ints m.vals).length
  positions : ∀ k i, (k, Route.pos i) ∈ m → 0 ≤ i ∧ c.args[i.toNat]? = some (.val (value k))
  keywords : ∀ t, c.kwds.get? t = match Spec.source m t with
    | some k => some (value k)
    | none => if t ∈ consumed then none else kwds.get? t

/-! ### Dictionary lemmas -/

theorem Dict.get?_erase {K V : Type} [DecidableEq K] (d : Dict K V) (hn : d.keys.Nodup) (k k' : K) :
    (d.erase k).get? k' = if k' = k then none else d.get? k' := by
  induction d with
  | nil => simp [Dict.erase, Dict.get?]
  | cons kv d ih =>
      obtain ⟨a, v⟩ := kv
      simp only [Dict.keys_cons, List.nodup_cons] at hn
      by_cases ha : a = k
      · subst ha
        simp only [Dict.erase, if_true, Dict.get?]
        by_cases hk : k' = a
        · subst hk; simp [Dict.get?_eq_none.mpr hn.1]
        · simp [hk, Ne.symm hk]
      · simp only [Dict.erase, if_neg ha, Dict.get?]
        by_cases hk : a = k'
        · subst hk; simp [ha]
        · simp only [if_neg hk, ih hn.2]

theorem Dict.nodup_erase {K V : Type} [DecidableEq K] (d : Dict K V) (hn : d.keys.Nodup) (k : K) :
    (d.erase k).keys.Nodup ∧ ∀ x ∈ (d.erase k).keys, x ∈ d.keys := by
  induction d with
  | nil => simp [Dict.erase]
  | cons kv d ih =>
      obtain ⟨a, v⟩ := kv
      simp only [Dict.keys_cons, List.nodup_cons] at hn
      obtain ⟨h1, h2⟩ := ih hn.2
      by_cases ha : a = k
      · simp only [Dict.erase, if_pos ha]
        exact ⟨hn.2, fun x hx => by simp [hx]⟩
      · simp only [Dict.erase, if_neg ha, Dict.keys_cons, List.nodup_cons]
        refine ⟨⟨fun h => hn.1 (h2 a h), h1⟩, ?_⟩
        intro x hx
        rcases List.mem_cons.mp hx with rfl | hx
        · simp
        · simp [h2 x hx]

/-! ### The general loop -/

/-- Both loops: take the value of an entry, then route it. -/
def routeLoop {V : Type} (take : Str → Dict Str V → Py (V × Dict Str V)) :
    Dict Str Route → Call V → Py (Call V)
  | [], c => .ok c
  | (k, r) :: m, c => match take k c.kwds with
    | .error e => .error e
    | .ok (v, kw) => match route { c with kwds := kw } v r with
      | .error e => .error e
      | .ok c' => routeLoop take m c'

theorem orderLoop_eq {V : Type} (m : Dict Str Route) : ∀ c : Call V,
    orderLoop m c = routeLoop (fun k d => d.pop k) m c := by
  induction m with
  | nil => intro c; rfl
  | cons kr m ih =>
      intro c; obtain ⟨k, r⟩ := kr
      simp only [orderLoop, routeLoop, ih]
      rcases c.kwds.pop k with _ | ⟨v, kw⟩
      · rfl
      · simp only; rcases route { args := c.args, kwds := kw } v r with _ | c' <;> rfl

theorem deltaLoop_eq {V : Type} (sub : V → V → V) (m : Dict Str Route) : ∀ c : Call V,
    deltaLoop sub m c = routeLoop (deltaValue sub) m c := by
  induction m with
  | nil => intro c; rfl
  | cons kr m ih =>
      intro c; obtain ⟨k, r⟩ := kr
      simp only [deltaLoop, routeLoop, ih]
      rcases deltaValue sub k c.kwds with _ | ⟨v, kw⟩
      · rfl
      · simp only; rcases route { args := c.args, kwds := kw } v r with _ | c' <;> rfl

theorem source_append (m m' : Dict Str Route) (t : Str) :
    Spec.source (m ++ m') t = match Spec.source m t with
      | some k => some k
      | none => Spec.source m' t := by
  induction m with
  | nil => rfl
  | cons kr m ih =>
      obtain ⟨k, r⟩ := kr
      cases r <;> simp only [List.cons_append, Spec.source, ih]
      split <;> simp

theorem source_some {m : Dict Str Route} {t k : Str} (h : Spec.source m t = some k) :
    (k, Route.key t) ∈ m := by
  induction m with
  | nil => simp [Spec.source] at h
  | cons kr m ih =>
      obtain ⟨a, r⟩ := kr
      cases r with
      | key t' =>
          simp only [Spec.source] at h
          by_cases ht : t' = t
          · rw [if_pos ht] at h; cases h; simp [ht]
          · rw [if_neg ht] at h; simp [ih h]
      | _ => simp only [Spec.source] at h; simp [ih h]

theorem mem_targets {m : Dict Str Route} {t k : Str} (h : (k, Route.key t) ∈ m) :
    t ∈ Spec.targets m :=
  List.mem_filterMap.mpr ⟨(k, .key t), h, rfl⟩

theorem mem_ints {m : Dict Str Route} {i : ℤ} {k : Str} (h : (k, Route.pos i) ∈ m) :
    i ∈ Route.ints m.vals := by
  induction m with
  | nil => simp at h
  | cons kr m ih =>
      obtain ⟨a, r⟩ := kr
      rcases List.mem_cons.mp h with h | h
      · cases h; simp [Dict.vals, Route.ints]
      · have := ih h
        cases r <;> simp_all [Dict.vals, Route.ints]

theorem ints_append (l l' : List Route) : Route.ints (l ++ l') = Route.ints l ++ Route.ints l' := by
  induction l with
  | nil => rfl
  | cons r l ih => cases r <;> simp [Route.ints, ih]

/-- Invariant after routing the entries `done`. -/
structure RouteInv {V : Type} (cons : Str → List Str) (value : Str → V) (args : List (PArg V))
    (L : ℕ) (kwds : Dict Str V) (done : Dict Str Route) (c : Call V) : Prop where
  nodup : c.kwds.keys.Nodup
  len : c.args.length = L
  pre : c.args.take args.length = args
  pos : ∀ k i, (k, Route.pos i) ∈ done → c.args[i.toNat]? = some (.val (value k))
  kw : ∀ t, c.kwds.get? t = match Spec.source done t with
    | some k => some (value k)
    | none => if t ∈ done.keys.flatMap cons then none else kwds.get? t

theorem routeLoop_inv {V : Type} (take : Str → Dict Str V → Py (V × Dict Str V))
    (cons : Str → List Str) (value : Str → V) (args : List (PArg V)) (L : ℕ) (kwds : Dict Str V)
    (todo : Dict Str Route) : ∀ (done : Dict Str Route) (c : Call V),
    -- taking an entry from keywords that agree with the given ones where it looks
    (∀ k ∈ todo.keys, ∀ kw : Dict Str V, kw.keys.Nodup →
      (∀ b ∈ cons k, kw.get? b = kwds.get? b) →
      ∃ kw', take k kw = .ok (value k, kw') ∧ kw'.keys.Nodup ∧
        ∀ t, kw'.get? t = if t ∈ cons k then none else kw.get? t) →
    (∀ k ∈ (done ++ todo).keys, ∀ b ∈ cons k, b ∈ kwds.keys) →
    ((done ++ todo).keys.flatMap cons).Nodup →
    (∀ k t, (k, Route.key t) ∈ done ++ todo → t ∉ kwds.keys ∨ t ∈ cons k) →
    (Spec.targets (done ++ todo)).Nodup →
    (∀ r ∈ (done ++ todo).vals, r ≠ .other) →
    (Route.ints (done ++ todo).vals).Nodup →
    (∀ i ∈ Route.ints (done ++ todo).vals, (args.length : ℤ) ≤ i ∧ i < L) →
    RouteInv cons value args L kwds done c →
    ∃ c', routeLoop take todo c = .ok c' ∧ RouteInv cons value args L kwds (done ++ todo) c' := by
  induction todo with
  | nil =>
      intro done c _ _ _ _ _ _ _ _ inv
      exact ⟨c, rfl, by simpa using inv⟩
  | cons kr todo ih =>
      obtain ⟨k, r⟩ := kr
      intro done c htake hsub hdis hfresh htn hoth hin hib inv
      have hassoc : done ++ (k, r) :: todo = (done ++ [(k, r)]) ++ todo := by simp
      have hkeys : (done ++ (k, r) :: todo).keys.flatMap cons =
          done.keys.flatMap cons ++ (cons k ++ (Dict.keys todo).flatMap cons) := by
        rw [Dict.keys_append, Dict.keys_cons, List.flatMap_append, List.flatMap_cons]
      have hdis' := hdis
      rw [hkeys] at hdis'
      rw [List.nodup_append] at hdis'
      have hagree : ∀ b ∈ cons k, c.kwds.get? b = kwds.get? b := by
        intro b hb
        have hbk : b ∈ kwds.keys := hsub k (by rw [Dict.keys_append]; simp) b hb
        have hnd : b ∉ done.keys.flatMap cons := fun h =>
          hdis'.2.2 b h b (by simp [hb]) rfl
        have hsrc : Spec.source done b = none := by
          rcases hs : Spec.source done b with _ | k'
          · rfl
          · exfalso
            have hm := source_some hs
            rcases hfresh k' b (by simp [hm]) with h | h
            · exact h hbk
            · exact hnd (List.mem_flatMap.mpr ⟨k', List.mem_map.mpr ⟨_, hm, rfl⟩, h⟩)
        rw [inv.kw b, hsrc]
        simp only [if_neg hnd]
      obtain ⟨kw', ht1, ht2, ht3⟩ := htake k (by simp) c.kwds inv.nodup hagree
      have hkw' : ∀ t, kw'.get? t = match Spec.source done t with
          | some k' => some (value k')
          | none => if t ∈ (done ++ [(k, r)]).keys.flatMap cons then none else kwds.get? t := by
        intro t
        have hfl : (done ++ [(k, r)]).keys.flatMap cons = done.keys.flatMap cons ++ cons k := by
          rw [Dict.keys_append]; simp [List.flatMap_append]
        rw [ht3 t, inv.kw t, hfl]
        rcases hs : Spec.source done t with _ | k'
        · simp only [List.mem_append]
          by_cases h1 : t ∈ cons k <;> by_cases h2 : t ∈ done.keys.flatMap cons <;> simp [h1, h2]
        · simp only
          have : t ∉ cons k := by
            intro htc
            have hm := source_some hs
            have htk : t ∈ kwds.keys := hsub k (by rw [Dict.keys_append]; simp) t htc
            rcases hfresh k' t (by simp [hm]) with h | h
            · exact h htk
            · exact hdis'.2.2 t (List.mem_flatMap.mpr ⟨k', List.mem_map.mpr ⟨_, hm, rfl⟩, h⟩) t
                (by simp [htc]) rfl
          rw [if_neg this]
      have step : ∃ c1, route { c with kwds := kw' } (value k) r = .ok c1 ∧
          RouteInv cons value args L kwds (done ++ [(k, r)]) c1 := by
        have hsrc1 : ∀ t, Spec.source (done ++ [(k, r)]) t =
            match Spec.source done t with
            | some k' => some k'
            | none => Spec.source [(k, r)] t := fun t => source_append _ _ t
        have hposold : (∀ i, r ≠ .pos i) → ∀ k' i, (k', Route.pos i) ∈ done ++ [(k, r)] →
            (k', Route.pos i) ∈ done := by
          intro hr k' i h
          rcases List.mem_append.mp h with h | h
          · exact h
          · simp only [List.mem_singleton, Prod.mk.injEq] at h
            exact absurd h.2.symm (hr i)
        cases r with
        | other => exact absurd rfl (hoth .other (by simp [Dict.vals]))
        | drop =>
            refine ⟨_, rfl, ht2, inv.len, inv.pre,
              fun k' i h => inv.pos k' i (hposold (by simp) k' i h), ?_⟩
            intro t
            rw [hsrc1 t]
            simp only [Spec.source]
            have := hkw' t
            rcases hs : Spec.source done t with _ | k' <;> simpa [hs] using this
        | key t0 =>
            have ht0 : Spec.source done t0 = none := by
              rcases hs : Spec.source done t0 with _ | k'
              · rfl
              · exfalso
                have hm := mem_targets (source_some hs)
                unfold Spec.targets at htn hm
                rw [List.filterMap_append, List.nodup_append] at htn
                exact htn.2.2 t0 hm t0 (by simp) rfl
            refine ⟨_, rfl, Dict.nodup_set ht2, inv.len, inv.pre,
              fun k' i h => inv.pos k' i (hposold (by simp) k' i h), ?_⟩
            intro t
            simp only
            rw [hsrc1 t, Dict.get?_set]
            simp only [Spec.source]
            by_cases h0 : t0 = t
            · subst h0; simp [ht0]
            · have := hkw' t
              rcases hs : Spec.source done t with _ | k' <;> simpa [hs, h0] using this
        | pos i =>
            have hi := hib i (mem_ints (k := k) (by simp))
            have hset : setArg c.args i (.val (value k)) = .ok (c.args.set i.toNat (.val (value k))) := by
              unfold setArg
              have h0 : ¬ i < 0 := by omega
              simp only [h0, if_false]
              rw [if_pos ⟨by omega, by rw [inv.len]; omega⟩]
            refine ⟨⟨c.args.set i.toNat (.val (value k)), kw'⟩, by simp only [route, hset], ht2, ?_, ?_, ?_, ?_⟩
            · simp [inv.len]
            · simp only
              rw [List.take_set, List.set_eq_of_length_le]
              · exact inv.pre
              · rw [List.length_take]; omega
            · intro k' j h
              simp only
              rcases List.mem_append.mp h with h | h
              · have hij : i ≠ j := by
                  rintro rfl
                  have hd : i ∈ Route.ints done.vals := mem_ints h
                  have hv : (done ++ (k, Route.pos i) :: todo).vals =
                      done.vals ++ Route.pos i :: Dict.vals todo := by simp [Dict.vals]
                  rw [hv, ints_append, List.nodup_append] at hin
                  exact hin.2.2 i hd i (by simp [Route.ints]) rfl
                have hj := hib j (mem_ints (k := k') (by simp [h]))
                rw [List.getElem?_set_ne (by omega)]
                exact inv.pos k' j h
              · simp only [List.mem_singleton, Prod.mk.injEq, Route.pos.injEq] at h
                obtain ⟨rfl, rfl⟩ := h
                rw [List.getElem?_set_self (by rw [inv.len]; omega)]
            · intro t
              rw [hsrc1 t]
              simp only [Spec.source]
              have := hkw' t
              rcases hs : Spec.source done t with _ | k' <;> simpa [hs] using this
      obtain ⟨c1, hc1, inv1⟩ := step
      obtain ⟨c2, hc2, inv2⟩ := ih (done ++ [(k, r)]) c1
        (fun k' hk' => htake k' (by simp [hk'])) (by rw [← hassoc]; exact hsub)
        (by rw [← hassoc]; exact hdis) (by rw [← hassoc]; exact hfresh)
        (by rw [← hassoc]; exact htn) (by rw [← hassoc]; exact hoth)
        (by rw [← hassoc]; exact hin) (by rw [← hassoc]; exact hib) inv1
      refine ⟨c2, by simp only [routeLoop, ht1, hc1, hc2], by rw [hassoc]; exact inv2⟩

theorem foldl_max_int (l : List ℤ) : ∀ n : ℤ,
    (n ≤ l.foldl (fun n i => max n (i + 1)) n ∧ ∀ i ∈ l, i + 1 ≤ l.foldl (fun n i => max n (i + 1)) n) ∧
    (l.foldl (fun n i => max n (i + 1)) n = n ∨
      ∃ i ∈ l, l.foldl (fun n i => max n (i + 1)) n = i + 1) := by
  induction l with
  | nil => intro n; simp
  | cons a l ih =>
      intro n
      obtain ⟨⟨h1, h2⟩, h3⟩ := ih (max n (a + 1))
      simp only [List.foldl_cons]
      refine ⟨⟨le_trans (le_max_left _ _) h1, ?_⟩, ?_⟩
      · intro i hi
        rcases List.mem_cons.mp hi with rfl | hi
        · exact le_trans (le_max_right _ _) h1
        · exact h2 i hi
      · rcases h3 with h3 | ⟨i, hi, h3⟩
        · rcases max_choice n (a + 1) with h | h
          · left; rw [h3, h]
          · right; exact ⟨a, by simp, by rw [h3, h]⟩
        · right; exact ⟨i, by simp [hi], h3⟩

/-- The declared positions are exactly those following the given arguments. -/
def Spec.Follow (n : ℕ) (ints : List ℤ) : Prop :=
  ints.Perm ((List.range ints.length).map fun j => ((n + j : ℕ) : ℤ))

theorem Follow.bounds {n : ℕ} {ints : List ℤ} (h : Spec.Follow n ints) :
    ints.Nodup ∧ ∀ i ∈ ints, (n : ℤ) ≤ i ∧ i < ((n + ints.length : ℕ) : ℤ) := by
  constructor
  · rw [h.nodup_iff]
    apply (List.nodup_range).map
    intro a b hab
    simp only [Nat.cast_add] at hab
    omega
  · intro i hi
    obtain ⟨j, hj, rfl⟩ := List.mem_map.mp (h.mem_iff.mp hi)
    rw [List.mem_range] at hj
    push_cast
    omega

theorem padArgs_length {V : Type} (args : List (PArg V)) (m : Dict Str Route)
    (h : Spec.Follow args.length (Route.ints m.vals)) :
    padArgs args m = args ++ List.replicate (Route.ints m.vals).length .none := by
  unfold padArgs
  obtain ⟨⟨h1, h2⟩, h3⟩ := foldl_max_int (Route.ints m.vals) (args.length : ℤ)
  have hb := (Follow.bounds h).2
  set N := (Route.ints m.vals).foldl (fun n i => max n (i + 1)) (args.length : ℤ) with hN
  have hNle : N ≤ ((args.length + (Route.ints m.vals).length : ℕ) : ℤ) := by
    rcases h3 with h3 | ⟨i, hi, h3⟩
    · rw [h3]; push_cast; omega
    · rw [h3]; have := (hb i hi).2; omega
  have hNge : ((args.length + (Route.ints m.vals).length : ℕ) : ℤ) ≤ N := by
    rcases hl : (Route.ints m.vals).length with _ | p
    · simpa using h1
    · have hmem : ((args.length + p : ℕ) : ℤ) ∈ Route.ints m.vals := by
        rw [h.mem_iff, hl]
        exact List.mem_map.mpr ⟨p, by simp, rfl⟩
      have := h2 _ hmem
      push_cast at this ⊢
      omega
  have : N.toNat - args.length = (Route.ints m.vals).length := by omega
  simp only [this]

/-- The conditions under which a mapping can be routed: no keyword is declared
twice, positions follow the given arguments, and target keywords are new (or
the key itself) and distinct. -/
structure Spec.Clean {V : Type} (m : Dict Str Route) (cons : Str → List Str)
    (args : List (PArg V)) (kwds : Dict Str V) : Prop where
  nodup : kwds.keys.Nodup
  present : ∀ k ∈ m.keys, ∀ b ∈ cons k, b ∈ kwds.keys
  once : (m.keys.flatMap cons).Nodup
  fresh : ∀ k t, (k, Route.key t) ∈ m → t ∉ kwds.keys ∨ t ∈ cons k
  targets : (Spec.targets m).Nodup
  known : ∀ r ∈ m.vals, r ≠ .other
  follow : Spec.Follow args.length (Route.ints m.vals)

theorem routed_of_inv {V : Type} (take : Str → Dict Str V → Py (V × Dict Str V))
    (cons : Str → List Str) (value : Str → V) (m : Dict Str Route)
    (args : List (PArg V)) (kwds : Dict Str V) (hc : Spec.Clean m cons args kwds)
    (htake : ∀ k ∈ m.keys, ∀ kw : Dict Str V, kw.keys.Nodup →
      (∀ b ∈ cons k, kw.get? b = kwds.get? b) →
      ∃ kw', take k kw = .ok (value k, kw') ∧ kw'.keys.Nodup ∧
        ∀ t, kw'.get? t = if t ∈ cons k then none else kw.get? t) :
    ∃ c, routeLoop take m ⟨padArgs args m, kwds⟩ = .ok c ∧
      Spec.Routed m (m.keys.flatMap cons) value args kwds c := by
  have hb := Follow.bounds hc.follow
  have hpad := padArgs_length args m hc.follow
  obtain ⟨c, h1, inv⟩ := routeLoop_inv take cons value args
    (args.length + (Route.ints m.vals).length) kwds m [] ⟨padArgs args m, kwds⟩ htake hc.present
    hc.once hc.fresh hc.targets hc.known hb.1 hb.2
    ⟨hc.nodup, by simp [hpad], by simp [hpad], by simp, by simp [Spec.source]⟩
  refine ⟨c, h1, inv.pre, inv.len, ?_, inv.kw⟩
  intro k i h
  refine ⟨?_, inv.pos k i h⟩
  have := (hb.2 i (mem_ints h)).1
  omega

/-! ### Order mappings -/

/-- C46: a clean order mapping passes each keyword's value to its declared
position or keyword, nothing dropped, duplicated or moved otherwise. -/
theorem C46_order_partial {V : Type} (sub : V → V → V) (m : Dict Str Route) (delta : Option (Dict Str Route)) (l0 : Bool)
    (args : List (PArg V)) (kwds : Dict Str V) (hm : m ≠ [])
    (hnd : ∀ d, args ≠ [.dict d]) (hc : Spec.Clean m (fun k => [k]) args kwds)
    (value : Str → V) (hv : ∀ k ∈ m.keys, kwds.get? k = some (value k)) :
    ∃ c, exprCall sub ⟨some m, delta⟩ l0 ⟨args, kwds⟩ = .ok c ∧
      Spec.Routed m m.keys value args kwds c := by
  have hun : unpackDict (⟨args, kwds⟩ : Call V) = ⟨args, kwds⟩ := by
    unfold unpackDict
    split
    · rename_i d h; exact absurd h (hnd d)
    · rfl
  have htr : truthy (some m) = some m := by
    cases m with
    | nil => exact absurd rfl hm
    | cons a m => rfl
  obtain ⟨c, h1, h2⟩ := routed_of_inv (fun k d => d.pop k) (fun k => [k]) value m args kwds hc (by
    intro k hk kw hkw hag
    have := hag k (by simp)
    refine ⟨kw.erase k, ?_, (Dict.nodup_erase kw hkw k).1, ?_⟩
    · simp only [Dict.pop, this, hv k hk]
    · intro t
      rw [Dict.get?_erase kw hkw]
      simp)
  refine ⟨c, ?_, ?_⟩
  · simp only [exprCall, hun, htr, orderLoop_eq, h1]
  · have : m.keys.flatMap (fun k => [k]) = m.keys := by simp
    rwa [this] at h2

/-! ### Delta mappings -/

/-- The keywords an entry of a delta mapping uses up. -/
def Spec.deltaUses (k : Str) : List Str :=
  if k.getLast? = some '\'' then [k, k.dropLast] else [k]

/-- C46: a clean delta mapping passes the declared differences (primed minus
unprimed) and values. -/
theorem C46_delta_partial {V : Type} (sub : V → V → V) (m : Dict Str Route) (l0 : Bool)
    (args : List (PArg V)) (kwds : Dict Str V) (hm : m ≠ [])
    (hnd : ∀ d, args ≠ [.dict d]) (hc : Spec.Clean m Spec.deltaUses args kwds)
    (hne : ∀ k ∈ m.keys, k ≠ []) (get : Str → V) (hv : ∀ k ∈ kwds.keys, kwds.get? k = some (get k)) :
    ∃ c, exprCall sub ⟨none, some m⟩ l0 ⟨args, kwds⟩ = .ok c ∧
      Spec.Routed m (m.keys.flatMap Spec.deltaUses)
        (fun k => if k.getLast? = some '\'' then sub (get k) (get k.dropLast) else get k)
        args kwds c := by
  have hun : unpackDict (⟨args, kwds⟩ : Call V) = ⟨args, kwds⟩ := by
    unfold unpackDict
    split
    · rename_i d h; exact absurd h (hnd d)
    · rfl
  have htr : truthy (some m) = some m := by
    cases m with
    | nil => exact absurd rfl hm
    | cons a m => rfl
  obtain ⟨c, h1, h2⟩ := routed_of_inv (deltaValue sub) Spec.deltaUses
    (fun k => if k.getLast? = some '\'' then sub (get k) (get k.dropLast) else get k)
    m args kwds hc (by
    intro k hk kw hkw hag
    have hlast : k.getLast? = some (k.getLast (hne k hk)) :=
      List.getLast?_eq_some_getLast (hne k hk)
    have hself : k ∈ Spec.deltaUses k := by unfold Spec.deltaUses; split <;> simp
    have hkv : kw.get? k = some (get k) := by
      rw [hag k hself]; exact hv k (hc.present k hk k hself)
    by_cases hp : k.getLast? = some '\''
    · have huse : Spec.deltaUses k = [k, k.dropLast] := by simp [Spec.deltaUses, hp]
      have hd : k.dropLast ∈ Spec.deltaUses k := by simp [huse]
      have hne' : k.dropLast ≠ k := by
        intro h
        have := congrArg List.length h
        have h0 := List.length_pos_iff.mpr (hne k hk)
        rw [List.length_dropLast] at this; omega
      have hdv : (kw.erase k).get? k.dropLast = some (get k.dropLast) := by
        rw [Dict.get?_erase kw hkw, if_neg hne', hag _ hd]
        exact hv _ (hc.present k hk _ hd)
      have hn1 := (Dict.nodup_erase kw hkw k).1
      refine ⟨(kw.erase k).erase k.dropLast, ?_, (Dict.nodup_erase _ hn1 _).1, ?_⟩
      · simp only [deltaValue, hp, Dict.pop, hkv, hdv]
        simp
      · intro t
        rw [Dict.get?_erase _ hn1, Dict.get?_erase kw hkw, huse]
        by_cases h1 : t = k.dropLast <;> by_cases h2 : t = k <;> simp [h1, h2]
    · have huse : Spec.deltaUses k = [k] := by simp [Spec.deltaUses, hp]
      refine ⟨kw.erase k, ?_, (Dict.nodup_erase kw hkw k).1, ?_⟩
      · rw [hlast] at hp
        have hp' : k.getLast (hne k hk) ≠ '\'' := fun h => hp (by rw [h])
        simp only [deltaValue, hlast, if_pos hp', Dict.pop, hkv]
        simp [hp']
      · intro t
        rw [Dict.get?_erase kw hkw, huse]
        simp)
  exact ⟨c, by simp only [exprCall, hun, htr, show truthy none = none from rfl, deltaLoop_eq, h1], h2⟩

/-! ### Without mapping, defaults -/

/-- C46: without mapping the arguments are passed as they are. -/
theorem C46_plain {V : Type} (sub : V → V → V) (c : Call V) (hnd : ∀ d, c.args ≠ [.dict d]) :
    exprCall sub ⟨none, none⟩ false c = .ok c := by
  have hun : unpackDict c = c := by
    unfold unpackDict
    split
    · rename_i d h; exact absurd h (hnd d)
    · rfl
  simp [exprCall, hun, truthy]

theorem foldl_set_get?' {V : Type} (u : Dict Str V) : ∀ (base : Dict Str V) (k : Str), u.keys.Nodup →
    (u.foldl (fun acc kv => acc.set kv.1 kv.2) base).get? k =
      match u.get? k with
      | some x => some x
      | none => base.get? k := by
  induction u with
  | nil => intro base k _; rfl
  | cons kv u ih =>
      obtain ⟨k', x⟩ := kv
      intro base k hn
      simp only [Dict.keys_cons, List.nodup_cons] at hn
      rw [List.foldl_cons, ih _ _ hn.2]
      by_cases hk : k' = k
      · subst hk
        have : Dict.get? u k' = none := Dict.get?_eq_none.mpr hn.1
        simp [this, Dict.get?, Dict.get?_set]
      · simp [Dict.get?, hk, Dict.get?_set]

/-- C46: a single dictionary argument stands for keywords, overriding those given
directly. -/
theorem C46_dict_argument {V : Type} (sub : V → V → V) (d kwds : Dict Str V) (hd : d.keys.Nodup) :
    ∃ c, exprCall sub ⟨none, none⟩ false ⟨[.dict d], kwds⟩ = .ok c ∧ c.args = [] ∧
      ∀ k, c.kwds.get? k = match d.get? k with
        | some v => some v
        | none => kwds.get? k :=
  ⟨_, rfl, rfl, fun k => foldl_set_get?' d kwds k hd⟩

/-- C46: default positional arguments precede those of the call, and keywords of
the call override default keywords. -/
theorem C46_defaults {V : Type} (sub : V → V → V) (dflt c : Call V) (hd : c.kwds.keys.Nodup)
    (hnd : ∀ d, dflt.args ++ c.args ≠ [.dict d]) :
    ∃ r, exprPartial sub ⟨none, none⟩ false dflt c = .ok r ∧ r.args = dflt.args ++ c.args ∧
      ∀ k, r.kwds.get? k = match c.kwds.get? k with
        | some v => some v
        | none => dflt.kwds.get? k :=
  ⟨_, C46_plain sub _ hnd, rfl, fun k => foldl_set_get?' c.kwds dflt.kwds k hd⟩

/-- An argument-free lambda silently ignores all keywords. -/
theorem C46_lambda_drops_keywords {V : Type} (sub : V → V → V) (kwds : Dict Str V) :
    exprCall sub ⟨none, none⟩ true ⟨[], kwds⟩ = .ok ⟨[], []⟩ := rfl

/-! ### Malformed mappings -/

/-- C46: a mapping is accepted exactly when all its values are positions, names or
None, and the positions are consecutive. -/
theorem C46_check (m : Dict Str Route) :
    checkMapping m = .ok () ↔ (∀ r ∈ m.vals, r ≠ .other) ∧
      ∀ i ∈ Route.ints m.vals, ∀ j ∈ Route.ints m.vals, ∀ x, i ≤ x → x ≤ j →
        x ∈ Route.ints m.vals := by
  unfold checkMapping
  have hany : m.vals.any Route.isOther = true ↔
      ¬ ∀ r ∈ m.vals, r ≠ .other := by
    rw [List.any_eq_true]
    push Not
    constructor
    · rintro ⟨r, h1, h2⟩
      refine ⟨r, h1, ?_⟩
      cases r <;> simp_all [Route.isOther]
    · rintro ⟨r, h1, rfl⟩; exact ⟨_, h1, rfl⟩
  by_cases h : m.vals.any Route.isOther = true
  · rw [if_pos h]
    have := hany.mp h
    simp [this]
  · rw [if_neg h]
    have hok : ∀ r ∈ m.vals, r ≠ .other := by
      by_contra hc; exact h (hany.mpr hc)
    have hall : (Route.ints m.vals).all (fun i => (Route.ints m.vals).all fun j =>
        (List.range (j - i).toNat).all fun d => decide ((i + d) ∈ Route.ints m.vals)) = true ↔
        ∀ i ∈ Route.ints m.vals, ∀ j ∈ Route.ints m.vals, ∀ x, i ≤ x → x ≤ j →
          x ∈ Route.ints m.vals := by
      simp only [List.all_eq_true, decide_eq_true_eq, List.mem_range]
      constructor
      · intro h i hi j hj x h1 h2
        rcases lt_or_eq_of_le h2 with h2 | rfl
        · have := h i hi j hj (x - i).toNat (by omega)
          rwa [show i + ((x - i).toNat : ℤ) = x by omega] at this
        · exact hj
      · intro h i hi j hj d hd
        exact h i hi j hj (i + d) (by omega) (by omega)
    by_cases hcond : (Route.ints m.vals).all (fun i => (Route.ints m.vals).all fun j =>
        (List.range (j - i).toNat).all fun d => decide ((i + d) ∈ Route.ints m.vals)) = true
    · simp only [if_pos hcond, true_iff]
      exact ⟨hok, hall.mp hcond⟩
    · simp only [if_neg hcond]
      simp only [reduceCtorEq, false_iff, not_and]
      intro _ h'
      exact hcond (hall.mpr h')

/-- C46: order and delta cannot both be set. -/
theorem C46_both_refused (s : ExprMaps) (m d : Dict Str Route) (h : s.delta = some d) :
    (setOrder s (some m)).2 = some .assertion := by
  simp [setOrder, h]

/-- C46: a malformed order is refused. -/
theorem C46_malformed_refused (s : ExprMaps) (m : Dict Str Route) (e : Err) (h : s.delta = none)
    (hm : checkMapping m = .error e) : (setOrder s (some m)).2 = some e := by
  simp [setOrder, h, hm]

/-- A refused mapping nevertheless stays in force: it replaces the previous one. -/
theorem C46_refused_stays (s : ExprMaps) (m : Dict Str Route) (e : Err)
    (_ : (setOrder s (some m)).2 = some e) : (setOrder s (some m)).1.order = some m := rfl

/-- C46 full claim: every accepted mapping of available keywords is routed as
declared. -/
def C46_claim : Prop :=
  ∀ (m : Dict Str Route) (kwds : Dict Str ℕ), m ≠ [] → m.keys.Nodup → kwds.keys.Nodup →
    checkMapping m = .ok () → (∀ k ∈ m.keys, k ∈ kwds.keys) →
    ∃ c, exprCall (fun a b => a - b) ⟨some m, none⟩ false ⟨[], kwds⟩ = .ok c ∧
      (∀ k i v, (k, Route.pos i) ∈ m → kwds.get? k = some v → 0 ≤ i → c.args[i.toNat]? = some (.val v)) ∧
      (∀ k t v, (k, Route.key t) ∈ m → kwds.get? k = some v → c.kwds.get? t = some v) ∧
      ∀ a ∈ c.args, ∃ v, a = .val v

/-- C46 fails: exchanging two keywords `{x: 'y', y: 'x'}` loses one of the
values. -/
theorem C46_claim_fails : ¬ C46_claim := by
  intro h
  obtain ⟨c, h1, _, h3, _⟩ := h [(['x'], .key ['y']), (['y'], .key ['x'])]
    [(['x'], 1), (['y'], 2)] (by simp) (by decide) (by decide) rfl (by decide)
  have he : exprCall (fun a b => a - b) ⟨some [(['x'], .key ['y']), (['y'], .key ['x'])], none⟩
      false ⟨[], [(['x'], 1), (['y'], 2)]⟩ = .ok ⟨[], [(['x'], 1)]⟩ := rfl
  rw [he] at h1
  cases h1
  have := h3 ['y'] ['x'] 2 (by simp) rfl
  simp [Dict.get?] at this

/-- Two keywords may be declared for one position; the first value is lost. -/
theorem C46_same_position_fails :
    checkMapping [(['x'], .pos 0), (['y'], .pos 0)] = .ok () ∧
    exprCall (fun a b : ℕ => a - b) ⟨some [(['x'], .pos 0), (['y'], .pos 0)], none⟩ false
      ⟨[], [(['x'], 1), (['y'], 2)]⟩ = .ok ⟨[.val 2], []⟩ := ⟨rfl, rfl⟩

/-- Positions need not start where the given arguments end: the gap is filled with
None. -/
theorem C46_gap_fails :
    checkMapping [(['x'], .pos 1)] = .ok () ∧
    exprCall (fun a b : ℕ => a - b) ⟨some [(['x'], .pos 1)], none⟩ false ⟨[], [(['x'], 1)]⟩ =
      .ok ⟨[.none, .val 1], []⟩ := ⟨rfl, rfl⟩

/-- Given positional arguments are overwritten by declared positions. -/
theorem C46_overwrite_fails :
    exprCall (fun a b : ℕ => a - b) ⟨some [(['x'], .pos 0)], none⟩ false
      ⟨[.val 7], [(['x'], 1)]⟩ = .ok ⟨[.val 1], []⟩ := rfl

/-- C46: a negative position counts from the end of the given arguments: the value
replaces the argument there, and IndexError is raised beyond the first. -/
theorem C46_negative_position {V : Type} (sub : V → V → V) (delta : Option (Dict Str Route))
    (l0 : Bool) (args : List (PArg V)) (kwds : Dict Str V) (hnd : ∀ d, args ≠ [.dict d]) (k : Str)
    (v : V) (hv : kwds.get? k = some v) (j : ℕ) (hj : 0 < j) :
    (j ≤ args.length → ∃ c, exprCall sub ⟨some [(k, .pos (-j))], delta⟩ l0 ⟨args, kwds⟩ = .ok c ∧
      c.args.length = args.length ∧ c.args[args.length - j]? = some (.val v) ∧
      (∀ i, i ≠ args.length - j → c.args[i]? = args[i]?) ∧ c.kwds = kwds.erase k) ∧
    (args.length < j →
      exprCall sub ⟨some [(k, .pos (-j))], delta⟩ l0 ⟨args, kwds⟩ = .error .index) := by
  have hun : unpackDict (⟨args, kwds⟩ : Call V) = ⟨args, kwds⟩ := by
    unfold unpackDict
    split
    · rename_i d h; exact absurd h (hnd d)
    · rfl
  have hpad : padArgs args [(k, Route.pos (-(j : ℤ)))] = args := by
    have : max (args.length : ℤ) (-(j : ℤ) + 1) = args.length := by omega
    simp [padArgs, Dict.vals, Route.ints, this]
  have hneg : (-(j : ℤ)) < 0 := by omega
  have hcall : exprCall sub ⟨some [(k, .pos (-j))], delta⟩ l0 ⟨args, kwds⟩ =
      match setArg args (-(j : ℤ)) (.val v) with
      | .ok a => .ok ⟨a, kwds.erase k⟩
      | .error e => .error e := by
    simp only [exprCall, hun, truthy, hpad, orderLoop, Dict.pop, hv, route]
    cases setArg args (-(j : ℤ)) (.val v) <;> rfl
  constructor
  · intro hle
    have hs : setArg args (-(j : ℤ)) (.val v) = .ok (args.set (args.length - j) (.val v)) := by
      unfold setArg
      simp only [hneg, if_true]
      rw [if_pos (by omega)]
      congr 2
      omega
    rw [hcall, hs]
    refine ⟨_, rfl, by simp, ?_, ?_, rfl⟩
    · simp only; rw [List.getElem?_set_self (by omega)]
    · intro i hi
      simp only; rw [List.getElem?_set_ne (Ne.symm hi)]
  · intro hlt
    have hs : setArg args (-(j : ℤ)) (.val v) = .error .index := by
      unfold setArg
      simp only [hneg, if_true]
      rw [if_neg (by omega)]
    rw [hcall, hs]

/-- Non-vacuity of `C46_negative_position`: the last of two arguments. -/
example : exprCall (fun a b : ℕ => a - b) ⟨some [(['x'], .pos (-1))], none⟩ false
    ⟨[.val 7, .val 8], [(['x'], 1)]⟩ = .ok ⟨[.val 7, .val 1], []⟩ := rfl

/-- Non-vacuity: one position, one renaming, one dropped, one untouched. -/
example : Spec.Clean (V := ℕ) [(['x'], .pos 1), (['y'], .key ['w']), (['z'], .drop)] (fun k => [k])
    [.val 5] [(['x'], 1), (['y'], 2), (['z'], 3), (['u'], 4)] where
  nodup := by decide
  present := by simp [Dict.keys]
  once := by decide
  fresh := by
    intro k t h
    simp at h
    obtain ⟨rfl, rfl⟩ := h
    left; decide
  targets := by decide
  known := by simp [Dict.vals]
  follow := by simp [Spec.Follow, Dict.vals, Route.ints]

/-- Non-vacuity for deltas: `{"x'": 0}`. -/
example : Spec.Clean (V := ℕ) [(['x', '\''], .pos 0)] Spec.deltaUses
    [] [(['x'], 1), (['x', '\''], 2)] where
  nodup := by decide
  present := by simp [Dict.keys, Spec.deltaUses]
  once := by decide
  fresh := by intro k t h; simp at h
  targets := by decide
  known := by simp [Dict.vals]
  follow := by simp [Spec.Follow, Dict.vals, Route.ints]

end Probayes
