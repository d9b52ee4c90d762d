/-
Broadcasting several shapes of any ranks.
-/
import Verif.Model.Expr
import Verif.Lemmas.BroadcastN

namespace Probayes

/-- The shape padded with leading ones. -/
def padTo (n : ℕ) (s : List ℕ) : List ℕ := List.replicate (n - s.length) 1 ++ s

theorem length_padTo {n : ℕ} {s : List ℕ} (h : s.length ≤ n) : (padTo n s).length = n := by
  simp [padTo]; omega

theorem padTo_self (s : List ℕ) : padTo s.length s = s := by simp [padTo]

theorem padTo_padTo {n m : ℕ} {s : List ℕ} (h1 : s.length ≤ m) (h2 : m ≤ n) : padTo n (padTo m s) = padTo n s := by
  have h3 : (padTo m s).length = m := length_padTo h1
  unfold padTo at h3 ⊢
  rw [h3, ← List.append_assoc, ← List.replicate_add]
  congr 2
  omega

theorem bshapeSame_length {s t r : List ℕ} (hl : s.length = t.length) (h : bshapeSame s t = .ok r) :
    r.length = s.length := by
  induction s generalizing t r with
  | nil =>
    cases t with
    | nil => cases h; rfl
    | cons _ _ => simp at hl
  | cons m s ih =>
    cases t with
    | nil => simp at hl
    | cons n t =>
      rw [bshapeSame] at h
      cases hr : bshapeSame s t with
      | error e => rw [hr] at h; cases h
      | ok r' =>
        rw [hr] at h
        have hlen := ih (by simpa using hl) hr
        change (if m = n then _ else _) = _ at h
        split at h
        · cases h; simp [hlen]
        · split at h
          · cases h; simp [hlen]
          · split at h
            · cases h; simp [hlen]
            · cases h

theorem bshapeSame_ones (k : ℕ) (s t : List ℕ) :
    bshapeSame (List.replicate k 1 ++ s) (List.replicate k 1 ++ t) =
      (bshapeSame s t).map (List.replicate k 1 ++ ·) := by
  induction k with
  | zero =>
    simp only [List.replicate_zero, List.nil_append]
    cases bshapeSame s t <;> rfl
  | succ k ih =>
    rw [List.replicate_succ, List.cons_append, List.cons_append, bshapeSame, ih]
    cases bshapeSame s t <;> rfl

/-- Broadcasting at a common rank. -/
theorem bshape_pad {n : ℕ} {s t : List ℕ} (hs : s.length ≤ n) (ht : t.length ≤ n) :
    bshapeSame (padTo n s) (padTo n t) = (bshape s t).map (padTo n) := by
  set m := max s.length t.length with hm
  have e1 : bshape s t = bshapeSame (padTo m s) (padTo m t) := by
    unfold bshape padTo
    congr 3 <;> omega
  have hms : (padTo m s).length = m := length_padTo (by omega)
  have hmt : (padTo m t).length = m := length_padTo (by omega)
  rw [← padTo_padTo (s := s) (m := m) (n := n) (by omega) (by omega),
    ← padTo_padTo (s := t) (m := m) (n := n) (by omega) (by omega), e1]
  have e2 : padTo n (padTo m s) = List.replicate (n - m) 1 ++ padTo m s := by
    conv_lhs => rw [padTo, hms]
  have e3 : padTo n (padTo m t) = List.replicate (n - m) 1 ++ padTo m t := by
    conv_lhs => rw [padTo, hmt]
  rw [e2, e3, bshapeSame_ones]
  cases hr : bshapeSame (padTo m s) (padTo m t) with
  | error e => rfl
  | ok r =>
    have := bshapeSame_length (by rw [hms, hmt]) hr
    rw [hms] at this
    show Except.ok _ = Except.ok _
    rw [padTo, this]

theorem bshape_length {s t r : List ℕ} (h : bshape s t = .ok r) : r.length = max s.length t.length := by
  unfold bshape at h
  have := bshapeSame_length (by simp; omega) h
  rw [this]
  simp
  omega

theorem bshapeSame_ok_fits {s t r : List ℕ} (hl : s.length = t.length) (h : bshapeSame s t = .ok r) :
    Fits s r ∧ Fits t r := by
  induction s generalizing t r with
  | nil =>
    cases t with
    | nil => cases h; exact ⟨.nil, .nil⟩
    | cons _ _ => simp at hl
  | cons m s ih =>
    cases t with
    | nil => simp at hl
    | cons n t =>
      rw [bshapeSame] at h
      cases hr : bshapeSame s t with
      | error e => rw [hr] at h; cases h
      | ok r' =>
        rw [hr] at h
        obtain ⟨f1, f2⟩ := ih (by simpa using hl) hr
        change (if m = n then _ else _) = _ at h
        split at h
        · rename_i hmn
          cases h; exact ⟨.cons (Or.inl rfl) f1, .cons (Or.inl hmn.symm) f2⟩
        · split at h
          · rename_i h1
            cases h; exact ⟨.cons (Or.inr h1) f1, .cons (Or.inl rfl) f2⟩
          · split at h
            · rename_i h1
              cases h; exact ⟨.cons (Or.inl rfl) f1, .cons (Or.inr h1) f2⟩
            · cases h

theorem Fits.trans' {s t u : List ℕ} (h1 : Fits s t) (h2 : Fits t u) : Fits s u := by
  unfold Fits at *
  induction h1 generalizing u with
  | nil => cases h2; exact .nil
  | cons ha _ ih =>
    cases h2 with
    | cons hb h2 =>
      refine .cons ?_ (ih h2)
      rcases ha with rfl | rfl
      · exact hb
      · exact Or.inr rfl

theorem Fits.pad {n : ℕ} {s t : List ℕ} (hs : s.length ≤ t.length) (ht : t.length ≤ n) (h : Fits (padTo t.length s) t) :
    Fits (padTo n s) (padTo n t) := by
  rw [← padTo_padTo hs ht]
  have hl : (padTo t.length s).length = t.length := length_padTo hs
  have e1 : padTo n (padTo t.length s) = List.replicate (n - t.length) 1 ++ padTo t.length s := by
    conv_lhs => rw [padTo, hl]
  have e2 : padTo n t = List.replicate (n - t.length) 1 ++ t := rfl
  rw [e1, e2]
  unfold Fits at *
  generalize n - t.length = k
  induction k with
  | zero => simpa using h
  | succ k ih => exact List.Forall₂.cons (Or.inl rfl) ih

/-- What a successful broadcast says. -/
theorem bshapeAll_ok_fits (shapes : List (List ℕ)) (S : List ℕ) (h : bshapeAll shapes = .ok S) :
    ∀ t ∈ shapes, t.length ≤ S.length ∧ Fits (padTo S.length t) S := by
  have key : ∀ (shapes : List (List ℕ)) (a S : List ℕ), shapes.foldlM bshape a = .ok S →
      (a.length ≤ S.length ∧ Fits (padTo S.length a) S) ∧
      ∀ t ∈ shapes, t.length ≤ S.length ∧ Fits (padTo S.length t) S := by
    intro shapes
    induction shapes with
    | nil =>
      intro a S h
      cases h
      refine ⟨⟨le_refl _, ?_⟩, by simp⟩
      rw [padTo_self]; exact Fits.refl _
    | cons t shapes ih =>
      intro a S h
      rw [List.foldlM_cons] at h
      cases hb : bshape a t with
      | error e => rw [hb] at h; cases h
      | ok r =>
        rw [hb] at h
        obtain ⟨⟨l1, f1⟩, hrest⟩ := ih r S h
        have hlen := bshape_length hb
        have hp := bshape_pad (n := r.length) (s := a) (t := t) (by omega) (by omega)
        rw [hb] at hp
        have hp' : bshapeSame (padTo r.length a) (padTo r.length t) = .ok r := by
          rw [hp]; show Except.ok _ = _; rw [padTo_self]
        obtain ⟨fa, ft⟩ := bshapeSame_ok_fits
          (by rw [length_padTo (by omega), length_padTo (by omega)]) hp'
        have lift : ∀ u : List ℕ, u.length ≤ r.length → Fits (padTo r.length u) r →
            u.length ≤ S.length ∧ Fits (padTo S.length u) S := fun u hu fu =>
          ⟨by omega, (fu.pad hu l1).trans' f1⟩
        refine ⟨lift a (by omega) fa, ?_⟩
        intro u hu
        rcases List.mem_cons.mp hu with rfl | hu
        · exact lift u (by omega) ft
        · exact hrest u hu
  exact (key shapes [] S h).2

theorem covers_of_bshapeSame {s t S : List ℕ} (hs : Fits s S) (ht : Fits t S) {r : List ℕ}
    (h : bshapeSame s t = .ok r) : Fits r S ∧ ∀ c, Covers s S c ∨ Covers t S c → Covers r S c := by
  obtain ⟨r', h1, h2, h3, _⟩ := bshapeSame_join hs ht
  rw [h] at h1
  cases h1
  exact ⟨h2, h3⟩

theorem bshapeAll_of_fits (shapes : List (List ℕ)) (S : List ℕ)
    (hf : ∀ t ∈ shapes, t.length ≤ S.length ∧ Fits (padTo S.length t) S)
    (hc : ∀ c < S.length, ∃ t ∈ shapes, S.length - c ≤ t.length ∧ Covers (padTo S.length t) S c) :
    bshapeAll shapes = .ok S := by
  have key : ∀ (shapes : List (List ℕ)) (a : List ℕ), (∀ t ∈ shapes, t.length ≤ S.length ∧ Fits (padTo S.length t) S) →
      a.length ≤ S.length → Fits (padTo S.length a) S →
      ∃ r, shapes.foldlM bshape a = .ok r ∧ r.length ≤ S.length ∧ Fits (padTo S.length r) S ∧
        (∀ t, t = a ∨ t ∈ shapes → t.length ≤ r.length) ∧
        ∀ c, (∃ t, (t = a ∨ t ∈ shapes) ∧ Covers (padTo S.length t) S c) → Covers (padTo S.length r) S c := by
    intro shapes
    induction shapes with
    | nil =>
      intro a _ ha fa
      refine ⟨a, rfl, ha, fa, ?_, ?_⟩
      · rintro t (rfl | h)
        · exact le_refl _
        · simp at h
      · rintro c ⟨t, (rfl | h), hc⟩
        · exact hc
        · simp at h
    | cons t shapes ih =>
      intro a hf ha fa
      obtain ⟨lt, ft⟩ := hf t (by simp)
      have hp := bshape_pad (n := S.length) ha lt
      obtain ⟨r', h1, h2, h3, _⟩ := bshapeSame_join fa ft
      rw [h1] at hp
      cases hb : bshape a t with
      | error e => rw [hb] at hp; cases hp
      | ok r =>
        rw [hb] at hp
        have hr' : r' = padTo S.length r := by
          have : Except.ok r' = (Except.ok (padTo S.length r) : Py (List ℕ)) := hp
          exact Except.ok.inj this
        subst hr'
        have hlen := bshape_length hb
        obtain ⟨q, q1, q2, q3, q4, q5⟩ := ih r (fun t ht => hf t (by simp [ht])) (by omega) h2
        refine ⟨q, ?_, q2, q3, ?_, ?_⟩
        · rw [List.foldlM_cons, hb]; exact q1
        · have hr := q4 r (Or.inl rfl)
          rintro u (rfl | hu)
          · omega
          · rcases List.mem_cons.mp hu with rfl | hu
            · omega
            · exact q4 u (Or.inr hu)
        · rintro c ⟨u, hu, hcu⟩
          apply q5
          rcases hu with rfl | hu
          · exact ⟨r, Or.inl rfl, h3 c (Or.inl hcu)⟩
          · rcases List.mem_cons.mp hu with rfl | hu
            · exact ⟨r, Or.inl rfl, h3 c (Or.inr hcu)⟩
            · exact ⟨u, Or.inr hu, hcu⟩
  obtain ⟨r, h1, h2, h3, h4, h5⟩ := key shapes [] hf (by simp) (by
    have : padTo S.length [] = List.replicate S.length 1 := by simp [padTo]
    rw [this]; exact fits_ones S)
  have hlen : r.length = S.length := by
    rcases Nat.eq_zero_or_pos S.length with h | h
    · omega
    · obtain ⟨t, ht, hl, _⟩ := hc 0 h
      have := h4 t (Or.inr ht)
      omega
  have hr : padTo S.length r = r := by rw [← hlen, padTo_self]
  rw [hr] at h5
  have : r = S := by
    apply List.ext_getElem?
    intro c
    by_cases hcS : c < S.length
    · obtain ⟨t, ht, _, hcov⟩ := hc c hcS
      exact h5 c ⟨t, Or.inr ht, hcov⟩
    · rw [List.getElem?_eq_none (by omega), List.getElem?_eq_none (by omega)]
  rw [← this]
  exact h1

end Probayes
