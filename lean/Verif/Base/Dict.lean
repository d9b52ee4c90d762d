/-
Python ordered dictionaries as association lists in insertion order, and strings
as lists of characters.
-/
import Verif.Base.Py
import Mathlib.Data.List.Nodup

namespace Probayes

/-- A Python string. -/
abbrev Str := List Char

/-- An ordered dictionary: entries in insertion order.  Operations below keep
keys distinct; arbitrary lists (with duplicate keys) are not dictionaries. -/
abbrev Dict (K V : Type _) := List (K × V)

namespace Dict

variable {K V W : Type _} [DecidableEq K]

/-- The keys in order. -/
def keys (d : Dict K V) : List K := d.map Prod.fst

/-- The values in order. -/
def vals (d : Dict K V) : List V := d.map Prod.snd

/-- `d.get(k)`. -/
def get? : Dict K V → K → Option V
  | [], _ => none
  | (k', v) :: d, k => if k' = k then some v else get? d k

/-- `d[k] = v` / `d.update({k: v})`: overwrite in place, or append. -/
def set : Dict K V → K → V → Dict K V
  | [], k, v => [(k, v)]
  | (k', v') :: d, k, v => if k' = k then (k', v) :: d else (k', v') :: set d k v

/-- `d.pop(k)` (the dictionary part). -/
def erase : Dict K V → K → Dict K V
  | [], _ => []
  | (k', v') :: d, k => if k' = k then d else (k', v') :: erase d k

/-- A dictionary built by successive updates. -/
def ofUpdates (l : List (K × V)) : Dict K V := l.foldl (fun d kv => set d kv.1 kv.2) []

@[simp] theorem keys_nil : keys ([] : Dict K V) = [] := rfl
omit [DecidableEq K] in
@[simp] theorem keys_cons (kv : K × V) (d : Dict K V) : keys (kv :: d) = kv.1 :: keys d := rfl
omit [DecidableEq K] in
theorem keys_append (d e : Dict K V) : keys (d ++ e) = keys d ++ keys e := by simp [keys]

theorem get?_eq_none {d : Dict K V} {k : K} : get? d k = none ↔ k ∉ keys d := by
  induction d with
  | nil => simp [get?]
  | cons kv d ih =>
    obtain ⟨k', v⟩ := kv
    by_cases h : k' = k
    · simp [get?, h]
    · simp [get?, h, ih, Ne.symm h]

theorem get?_isSome {d : Dict K V} {k : K} : (get? d k).isSome ↔ k ∈ keys d := by
  rw [← not_iff_not, ← get?_eq_none]; simp

theorem get?_mem {d : Dict K V} {k : K} {v : V} (h : get? d k = some v) : (k, v) ∈ d := by
  induction d with
  | nil => simp [get?] at h
  | cons kv d ih =>
    obtain ⟨k', v'⟩ := kv
    by_cases hk : k' = k
    · simp [get?, hk] at h; simp [hk, h]
    · simp [get?, hk] at h; simp [ih h]

theorem get?_of_mem {d : Dict K V} {k : K} {v : V} (hn : (keys d).Nodup) (h : (k, v) ∈ d) :
    get? d k = some v := by
  induction d with
  | nil => simp at h
  | cons kv d ih =>
    obtain ⟨k', v'⟩ := kv
    simp only [keys_cons, List.nodup_cons] at hn
    rcases List.mem_cons.mp h with h | h
    · simp only [Prod.mk.injEq] at h; simp [get?, h.1, h.2]
    · have : k' ≠ k := by
        rintro rfl
        exact hn.1 (List.mem_map.mpr ⟨_, h, rfl⟩)
      simp [get?, this, ih hn.2 h]

theorem set_of_notMem {d : Dict K V} {k : K} {v : V} (h : k ∉ keys d) :
    set d k v = d ++ [(k, v)] := by
  induction d with
  | nil => rfl
  | cons kv d ih =>
    obtain ⟨k', v'⟩ := kv
    simp only [keys_cons, List.mem_cons, not_or] at h
    simp [set, Ne.symm h.1, ih h.2]

theorem keys_set_of_mem {d : Dict K V} {k : K} {v : V} (h : k ∈ keys d) :
    keys (set d k v) = keys d := by
  induction d with
  | nil => simp at h
  | cons kv d ih =>
    obtain ⟨k', v'⟩ := kv
    by_cases hk : k' = k
    · simp [set, hk]
    · simp only [keys_cons, List.mem_cons] at h
      simp [set, hk, ih (h.resolve_left (Ne.symm hk))]

theorem keys_set (d : Dict K V) (k : K) (v : V) :
    keys (set d k v) = if k ∈ keys d then keys d else keys d ++ [k] := by
  by_cases h : k ∈ keys d
  · simp [h, keys_set_of_mem h]
  · rw [if_neg h, set_of_notMem h, keys_append]; rfl

theorem nodup_set {d : Dict K V} {k : K} {v : V} (h : (keys d).Nodup) : (keys (set d k v)).Nodup := by
  rw [keys_set]
  split
  · exact h
  · rename_i hk
    rw [List.nodup_append]
    refine ⟨h, by simp, ?_⟩
    intro a ha b hb hab
    rw [List.mem_singleton] at hb
    exact hk (hb ▸ hab ▸ ha)

theorem get?_set (d : Dict K V) (k k' : K) (v : V) :
    get? (set d k v) k' = if k = k' then some v else get? d k' := by
  induction d with
  | nil => by_cases h : k = k' <;> simp [set, get?, h]
  | cons kv d ih =>
    obtain ⟨a, b⟩ := kv
    by_cases h : a = k
    · subst h
      by_cases h' : a = k' <;> simp [set, get?, h']
    · by_cases h' : a = k'
      · subst h'
        simp [set, get?, h, Ne.symm h]
      · simp [set, get?, h, h', ih]

theorem ofUpdates_foldl (l : List (K × V)) :
    ∀ d : Dict K V, (keys d ++ l.map Prod.fst).Nodup →
      l.foldl (fun d kv => set d kv.1 kv.2) d = d ++ l := by
  induction l with
  | nil => simp
  | cons kv l ih =>
    intro d h
    have hk : kv.1 ∉ keys d := by
      intro hc
      rw [List.nodup_append] at h
      exact h.2.2 _ hc _ (by simp) rfl
    rw [List.foldl_cons, set_of_notMem hk, ih]
    · simp
    · simpa [keys] using h

/-- Updates with distinct keys build exactly the list. -/
theorem ofUpdates_of_nodup {l : List (K × V)} (h : (l.map Prod.fst).Nodup) : ofUpdates l = l := by
  simpa [ofUpdates] using ofUpdates_foldl l [] (by simpa using h)

end Dict
end Probayes
