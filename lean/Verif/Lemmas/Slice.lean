/-
Row-major positions under axes of size one, entries at increasing positions, and
repeated assignments to a list.
-/
import Verif.Lemmas.Indices
import Verif.Model.Slice

namespace Probayes

/-- Axes of size one do not matter for the row-major position. -/
theorem ravel_without_ones {s i : List ℕ} (h : i ∈ idx s) :
    ravelIx s i = ravelIx (((s.zip i).filter fun p => decide (p.1 ≠ 1)).map Prod.fst)
      (((s.zip i).filter fun p => decide (p.1 ≠ 1)).map Prod.snd) := by
  have h' := mem_idx.mp h
  clear h
  induction h' with
  | nil => rfl
  | @cons i n j s h1 _ ih =>
    by_cases hn : n = 1
    · subst hn
      have : i = 0 := by omega
      subst this
      simp only [ravelIx, Nat.zero_mul, Nat.zero_add, List.zip_cons_cons]
      rw [List.filter_cons_of_neg (by simp)]
      exact ih
    · simp only [List.zip_cons_cons]
      rw [List.filter_cons_of_pos (by simpa using hn)]
      simp only [List.map_cons, ravelIx]
      rw [← ih]
      congr 2
      rename_i hj
      clear ih h1
      induction hj with
      | nil => rfl
      | @cons a m t u _ _ ih =>
        by_cases hm : m = 1
        · subst hm
          rw [List.zip_cons_cons, List.filter_cons_of_neg (by simp)]
          simpa using ih
        · rw [List.zip_cons_cons, List.filter_cons_of_pos (by simpa using hm)]
          simp [ih]

/-- Nor do they for the number of elements. -/
theorem prod_without_ones (s : List ℕ) : s.prod = (s.filter fun n => decide (n ≠ 1)).prod := by
  induction s with
  | nil => rfl
  | cons n s ih =>
    by_cases hn : n = 1
    · subst hn
      rw [List.filter_cons_of_neg (by simp)]
      simpa using ih
    · rw [List.filter_cons_of_pos (by simpa using hn), List.prod_cons, List.prod_cons, ih]

/-- A filter that only keeps entries at some increasing positions. -/
theorem filter_positions {β : Type _} (p : β → Bool) (L : List β) (ds : List ℕ) (hs : ds.Pairwise (· < ·))
    (hn : ∀ (n : ℕ) (x : β), L[n]? = some x → n ∉ ds → p x = false) :
    L.filter p = (ds.filterMap (L[·]?)).filter p := by
  induction L generalizing ds with
  | nil => simp
  | cons x L ih =>
    have hL : ∀ es : List ℕ, es.Pairwise (· < ·) → (∀ e ∈ es, 0 < e) → (∀ n, n + 1 ∉ es → n + 1 ∉ ds) →
        L.filter p = (es.filterMap ((x :: L)[·]?)).filter p := by
      intro es h1 h2 h3
      have := ih (es.map (· - 1)) (by
        rw [List.pairwise_map]
        refine h1.imp_of_mem ?_
        intro a b ha hb hab
        have := h2 a ha; have := h2 b hb; omega) (by
        intro n y hy hny
        refine hn (n + 1) y (by simpa using hy) (h3 n ?_)
        intro h
        exact hny (List.mem_map.mpr ⟨n + 1, h, by simp⟩))
      rw [this, List.filterMap_map]
      congr 1
      apply List.filterMap_congr
      intro e he
      obtain ⟨e, rfl⟩ : ∃ e', e = e' + 1 := ⟨e - 1, by have := h2 e he; omega⟩
      simp
    rcases ds with _ | ⟨d, ds⟩
    · have hx : p x = false := hn 0 x rfl (by simp)
      rw [List.filter_cons_of_neg (by simp [hx])]
      exact hL [] List.Pairwise.nil (by simp) (by simp)
    · rw [List.pairwise_cons] at hs
      rcases d with _ | d
      · have := hL ds hs.2 (fun e he => hs.1 e he) (by intro n hn'; simp [hn'])
        simp only [List.filterMap_cons, List.getElem?_cons_zero]
        by_cases hx : p x = true
        · rw [List.filter_cons_of_pos hx, List.filter_cons_of_pos hx, this]
        · rw [List.filter_cons_of_neg hx, List.filter_cons_of_neg hx, this]
      · have h0 : 0 ∉ (d + 1) :: ds := by
          simp only [List.mem_cons, not_or]
          exact ⟨by omega, fun h => by have := hs.1 0 h; omega⟩
        have hx : p x = false := hn 0 x rfl h0
        rw [List.filter_cons_of_neg (by simp [hx])]
        exact hL ((d + 1) :: ds) (List.pairwise_cons.mpr hs) (by
          intro e he
          rcases List.mem_cons.mp he with rfl | he
          · omega
          · have := hs.1 e he; omega) (fun _ h => h)

/-- Assignments to a list, one for every key with a position. -/
def assign {K V : Type _} (f : K → Option (ℕ × V)) (l : List V) (k : K) : List V :=
  match f k with
  | none => l
  | some (d, v) => l.set d v

theorem length_assign {K V : Type _} (f : K → Option (ℕ × V)) (ks : List K) (l : List V) :
    (ks.foldl (assign f) l).length = l.length := by
  induction ks generalizing l with
  | nil => rfl
  | cons k ks ih =>
    rw [List.foldl_cons, ih, assign]
    split <;> simp

theorem assign_miss {K V : Type _} (f : K → Option (ℕ × V)) (ks : List K) (l : List V) (d : ℕ)
    (h : ∀ k ∈ ks, ∀ v, f k ≠ some (d, v)) : (ks.foldl (assign f) l)[d]? = l[d]? := by
  induction ks generalizing l with
  | nil => rfl
  | cons k ks ih =>
    rw [List.foldl_cons, ih _ (fun k' hk' => h k' (by simp [hk'])), assign]
    split
    · rfl
    · rename_i d' v heq
      have : d' ≠ d := by
        rintro rfl
        exact h k (by simp) v heq
      rw [List.getElem?_set_ne this]

theorem assign_hit {K V : Type _} (f : K → Option (ℕ × V)) (ks : List K) (l : List V) (d : ℕ) (v : V) (k : K)
    (hk : k ∈ ks) (hf : f k = some (d, v)) (hd : d < l.length)
    (hu : ∀ k' ∈ ks, ∀ v', f k' = some (d, v') → v' = v) : (ks.foldl (assign f) l)[d]? = some v := by
  induction ks generalizing l with
  | nil => simp at hk
  | cons k' ks ih =>
    rw [List.foldl_cons]
    have hlen : d < (assign f l k').length := by
      rw [assign]; split <;> simpa using hd
    by_cases hks : k ∈ ks
    · exact ih _ hks hlen (fun k'' h'' => hu k'' (by simp [h'']))
    · have : k = k' := by simpa [hks] using hk
      subst this
      by_cases hex : ∃ k'' ∈ ks, ∃ v', f k'' = some (d, v')
      · obtain ⟨k'', h1, v', h2⟩ := hex
        have := hu k'' (by simp [h1]) v' h2
        subst this
        clear ih
        have aux : ∀ (ks : List K) (l : List V), d < l.length → l[d]? = some v' →
            (∀ k' ∈ ks, ∀ w, f k' = some (d, w) → w = v') → (ks.foldl (assign f) l)[d]? = some v' := by
          intro ks
          induction ks with
          | nil => intro l _ h _; exact h
          | cons a ks ih =>
            intro l hl h hu
            rw [List.foldl_cons]
            apply ih
            · rw [assign]; split <;> simpa using hl
            · rw [assign]
              split
              · exact h
              · rename_i d' w heq
                by_cases hd' : d' = d
                · subst hd'
                  rw [hu a (by simp) w heq]
                  simp [hl]
                · rw [List.getElem?_set_ne hd', h]
            · exact fun k' hk' => hu k' (by simp [hk'])
        apply aux ks _ hlen
        · simp [assign, hf, hd]
        · exact fun k' hk' => hu k' (by simp [hk'])
      · rw [assign_miss]
        · simp [assign, hf, hd]
        · intro k'' h'' w hw
          exact hex ⟨k'', h'', w, hw⟩

theorem increasing_iff (l : List ℕ) : increasing l = true ↔ l.Pairwise (· < ·) := by
  induction l with
  | nil => simp [increasing]
  | cons a l ih =>
    rcases l with _ | ⟨b, l⟩
    · simp [increasing]
    · rw [increasing, Bool.and_eq_true, ih, decide_eq_true_iff, List.pairwise_cons (a := a)]
      constructor
      · rintro ⟨h1, h2⟩
        refine ⟨?_, h2⟩
        intro c hc
        rcases List.mem_cons.mp hc with rfl | hc
        · exact h1
        · exact lt_trans h1 ((List.pairwise_cons.mp h2).1 c hc)
      · rintro ⟨h1, h2⟩
        exact ⟨h1 b (by simp), h2⟩

theorem length_hits {α : Type} [DecidableEq α] (ys : List α) (x : α) : (hits ys x).length = ys.count x := by
  rw [hits]
  induction ys using List.reverseRecOn with
  | nil => simp
  | append_singleton ys y ih =>
    rw [List.length_append, List.length_singleton, List.range_succ, List.filter_append, List.length_append,
      List.count_append, ← ih]
    congr 1
    · congr 1
      apply List.filter_congr
      intro i hi
      rw [List.getElem?_append_left (by simpa using hi)]
    · by_cases hy : y = x
      · simp [hy]
      · simp [hy, List.count_singleton]

/-- The one matching position. -/
theorem hits_one {α : Type} [DecidableEq α] {xs : List α} {x : α} (h : xs.count x = 1) :
    ∃ p, hits xs x = [p] ∧ xs[p]? = some x := by
  have h1 := length_hits xs x
  rw [h] at h1
  obtain ⟨p, hp⟩ := List.length_eq_one_iff.mp h1
  refine ⟨p, hp, ?_⟩
  have : p ∈ hits xs x := by rw [hp]; simp
  simpa [hits] using (List.mem_filter.mp this).2

theorem hits_none {α : Type} [DecidableEq α] {xs : List α} {x : α} (h : x ∉ xs) : hits xs x = [] := by
  rw [hits, List.filter_eq_nil_iff]
  intro i hi
  simp only [decide_eq_true_eq]
  intro hx
  exact h (List.mem_of_getElem? hx)

theorem eqAll_self {α : Type} [DecidableEq α] (xs : List α) : eqAll xs xs = true := by
  rcases xs with _ | ⟨x, _ | ⟨y, xs⟩⟩ <;> simp [eqAll]

end Probayes
