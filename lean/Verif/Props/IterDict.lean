/-
C117: lists of dictionaries collected in one dictionary.
-/
import Verif.Model.IterDict

namespace Probayes

variable {V : Type}

/-! ### Helpers -/

theorem foldl_union_mem (ds : List (Dict Str V)) (s : List Str) (k : Str) :
    k ∈ ds.foldl (fun s d => Dict.keys d ∪ s) s ↔ k ∈ s ∨ ∃ d ∈ ds, k ∈ Dict.keys d := by
  induction ds generalizing s with
  | nil => simp
  | cons d ds ih =>
    rw [List.foldl_cons, ih]
    simp only [List.mem_union_iff, List.mem_cons, exists_eq_or_imp]
    tauto

theorem foldl_union_nodup (ds : List (Dict Str V)) (s : List Str) (hs : s.Nodup) :
    (ds.foldl (fun s d => Dict.keys d ∪ s) s).Nodup := by
  induction ds generalizing s with
  | nil => exact hs
  | cons d ds ih => exact ih _ (List.Nodup.union _ hs)

theorem collectKey_eq (dicts : List (Dict Str V)) (k : Str) : collectKey dicts k = dicts.filterMap fun d => Dict.get? d k := by
  induction dicts with
  | nil => rfl
  | cons d ds ih =>
    unfold collectKey
    cases h : Dict.get? d k <;> simp [h, ih]

theorem get?_map_keys {W : Type} (f : Str → W) (ks : List Str) (k : Str) :
    Dict.get? (ks.map fun k => (k, f k)) k = if k ∈ ks then some (f k) else none := by
  induction ks with
  | nil => rfl
  | cons a ks ih =>
    simp only [List.map_cons, Dict.get?, ih, List.mem_cons]
    by_cases h : a = k
    · simp [h]
    · simp [h, Ne.symm h]

/-- What `iterdict` gives. -/
theorem iterdict_run {order : List Str → List Str} (ho : ∀ ks, (order ks).Perm ks) {dicts : List (Dict Str V)}
    (h0 : dicts ≠ []) (hn : ∀ d ∈ dicts, (Dict.keys d).Nodup) :
    ∃ ks : List Str, iterdict order dicts = .ok (ks.map fun k => (k, dicts.filterMap fun d => Dict.get? d k)) ∧ ks.Nodup ∧
      ∀ k, k ∈ ks ↔ ∃ d ∈ dicts, k ∈ Dict.keys d := by
  cases dicts with
  | nil => exact absurd rfl h0
  | cons d ds =>
    have hnd := foldl_union_nodup ds (Dict.keys d) (hn d List.mem_cons_self)
    refine ⟨order (ds.foldl (fun s d => Dict.keys d ∪ s) (Dict.keys d)), ?_, (ho _).nodup_iff.2 hnd, fun k => ?_⟩
    · simp only [iterdict, unionKeys, collectKey_eq]
      rw [Dict.ofUpdates_of_nodup]
      rw [List.map_map]
      have : (Prod.fst ∘ fun k => (k, List.filterMap (fun d => Dict.get? d k) (d :: ds))) = id := rfl
      rw [this, List.map_id]
      exact (ho _).nodup_iff.2 hnd
    · rw [(ho _).mem_iff, foldl_union_mem]
      simp

/-! ### Properties -/

/-- C117: whatever the order of sets, the keys of `iterdict` are those of the dictionaries, each once. -/
theorem C117_keys {order : List Str → List Str} (ho : ∀ ks, (order ks).Perm ks) {dicts : List (Dict Str V)}
    (h0 : dicts ≠ []) (hn : ∀ d ∈ dicts, (Dict.keys d).Nodup) :
    ∃ r, iterdict order dicts = .ok r ∧ (Dict.keys r).Nodup ∧ ∀ k, k ∈ Dict.keys r ↔ ∃ d ∈ dicts, k ∈ Dict.keys d := by
  obtain ⟨ks, h1, h2, h3⟩ := iterdict_run ho h0 hn
  have e : Dict.keys (ks.map fun k => (k, dicts.filterMap fun d => Dict.get? d k)) = ks := by
    unfold Dict.keys
    rw [List.map_map]
    exact List.map_id ks
  exact ⟨_, h1, by rw [e]; exact h2, fun k => by rw [e]; exact h3 k⟩

/-- C117: the list at a key has the values at that key, in the order of the dictionaries. -/
theorem C117_values {order : List Str → List Str} (ho : ∀ ks, (order ks).Perm ks) {dicts : List (Dict Str V)}
    (hn : ∀ d ∈ dicts, (Dict.keys d).Nodup) {r : Dict Str (List V)} (h : iterdict order dicts = .ok r) {k : Str}
    (hk : ∃ d ∈ dicts, k ∈ Dict.keys d) : Dict.get? r k = some (dicts.filterMap fun d => Dict.get? d k) := by
  obtain ⟨d, hd, hdk⟩ := hk
  obtain ⟨ks, h1, _, h3⟩ := iterdict_run ho (List.ne_nil_of_mem hd) hn
  rw [h1] at h
  cases h
  rw [get?_map_keys, if_pos ((h3 k).2 ⟨d, hd, hdk⟩)]

/-- C117: without dictionaries TypeError is raised. -/
theorem C117_none (order : List Str → List Str) : iterdict order ([] : List (Dict Str V)) = .error .type := rfl

/-- C117, full claim: the value of the `i`-th dictionary at a key is the `i`-th value of the list at that key. -/
def C117_claim : Prop :=
  ∀ (V : Type) (order : List Str → List Str), (∀ ks, (order ks).Perm ks) → ∀ dicts : List (Dict Str V),
    (∀ d ∈ dicts, (Dict.keys d).Nodup) → ∀ r, iterdict order dicts = .ok r → ∀ (i : ℕ) (d : Dict Str V) (k : Str) (v : V),
    dicts[i]? = some d → Dict.get? d k = some v → ∃ vs, Dict.get? r k = some vs ∧ vs[i]? = some v

/-- C117: dictionaries without the key leave no gap in its list. -/
theorem C117_claim_fails : ¬ C117_claim := by
  intro h
  obtain ⟨vs, h1, h2⟩ := h ℕ id (fun _ => .refl _) [[], [("x".toList, 1)]] (by simp [Dict.keys]) _ rfl 1 _ "x".toList 1 rfl rfl
  have h3 : some vs = some [1] := h1.symm.trans rfl
  cases h3
  simp at h2

/-- C117, proved part: keys that all dictionaries have. -/
theorem C117_read_back_partial {order : List Str → List Str} (ho : ∀ ks, (order ks).Perm ks) {dicts : List (Dict Str V)}
    (hn : ∀ d ∈ dicts, (Dict.keys d).Nodup) {r : Dict Str (List V)} (h : iterdict order dicts = .ok r) {k : Str}
    (hall : ∀ d ∈ dicts, k ∈ Dict.keys d) {i : ℕ} {d : Dict Str V} {v : V} (hi : dicts[i]? = some d)
    (hv : Dict.get? d k = some v) : ∃ vs, Dict.get? r k = some vs ∧ vs.length = dicts.length ∧ vs[i]? = some v := by
  have hd := List.mem_of_getElem? hi
  refine ⟨_, C117_values ho hn h ⟨d, hd, hall d hd⟩, ?_⟩
  clear h hd hn
  induction dicts generalizing i with
  | nil => simp at hi
  | cons a ds ih =>
    obtain ⟨x, hx⟩ := Option.isSome_iff_exists.1 (Dict.get?_isSome.2 (hall a List.mem_cons_self))
    have hl : ∀ ds' : List (Dict Str V), (∀ d ∈ ds', k ∈ Dict.keys d) →
        (ds'.filterMap fun d => Dict.get? d k).length = ds'.length := by
      intro ds' h'
      rw [List.filterMap_length_eq_length]
      exact fun d hd => Dict.get?_isSome.2 (h' d hd)
    refine ⟨hl _ hall, ?_⟩
    have e : (a :: ds).filterMap (fun d => Dict.get? d k) = x :: ds.filterMap fun d => Dict.get? d k := by
      simp [hx]
    rw [e]
    cases i with
    | zero =>
      simp only [List.getElem?_cons_zero, Option.some.injEq] at hi ⊢
      subst hi
      rw [hv] at hx
      exact (Option.some.inj hx).symm
    | succ i =>
      simp only [List.getElem?_cons_succ] at hi ⊢
      exact (ih (fun d hd => hall d (List.mem_cons_of_mem _ hd)) hi).2

/-- Two dictionaries, of which one lacks a key. -/
example : iterdict id [[("x".toList, 1), ("y".toList, 2)], [("y".toList, 3)]] =
    .ok [("x".toList, [1]), ("y".toList, [2, 3])] := by decide

/-- The hypotheses are met by them. -/
example : (∀ ks : List Str, (id ks).Perm ks) ∧ (∀ d ∈ [[("x".toList, 1), ("y".toList, 2)], [("y".toList, 3)]],
    (Dict.keys d).Nodup ∧ "y".toList ∈ Dict.keys d) :=
  ⟨fun _ => .refl _, by decide⟩

end Probayes
