/-
Lemmas on products of several arrays with broadcasting (`prod_rule`).
-/
import Verif.Model.PDProduct
import Verif.Lemmas.Broadcast
import Verif.Props.PScalesProd

namespace Probayes

/-- A shape that broadcasts to `S`: a scalar, or of the same rank with ones. -/
def FitsR (t S : List ℕ) : Prop := t = [] ∨ Fits t S

/-- The shape `t` has the size of `S` on axis `c`. -/
def Covers (t S : List ℕ) (c : ℕ) : Prop := t[c]? = S[c]?

theorem bshapeSame_join {s t S : List ℕ} (hs : Fits s S) (ht : Fits t S) :
    ∃ r, bshapeSame s t = .ok r ∧ Fits r S ∧
      (∀ c, Covers s S c ∨ Covers t S c → Covers r S c) ∧
      ∀ j : List ℕ, j.length = S.length →
        clip s (clip r j) = clip s j ∧ clip t (clip r j) = clip t j := by
  unfold Fits at hs ht
  induction hs generalizing t with
  | nil =>
    cases ht
    exact ⟨[], rfl, .nil, fun c _ => rfl, fun j _ => by simp [clip]⟩
  | @cons m n s S h1 _ ih =>
    cases ht with
    | @cons k _ t _ h2 ht =>
      obtain ⟨r, hr, hf, hc, hj⟩ := ih ht
      have key : ∀ x, (x = n ∨ x = 1) → (m = n ∨ k = n → x = n) → (x = 1 → m = 1 ∧ k = 1) →
          bshapeSame (m :: s) (k :: t) = .ok (x :: r) →
          ∃ r, bshapeSame (m :: s) (k :: t) = .ok r ∧ Fits r (n :: S) ∧
            (∀ c, Covers (m :: s) (n :: S) c ∨ Covers (k :: t) (n :: S) c → Covers r (n :: S) c) ∧
            ∀ j : List ℕ, j.length = (n :: S).length →
              clip (m :: s) (clip r j) = clip (m :: s) j ∧
              clip (k :: t) (clip r j) = clip (k :: t) j := by
        intro x hx hcov hone he
        refine ⟨x :: r, he, .cons hx hf, ?_, ?_⟩
        · intro c hcc
          rcases c with _ | c
          · simp only [Covers, List.getElem?_cons_zero, Option.some.injEq] at hcc ⊢
            exact hcov hcc
          · simp only [Covers, List.getElem?_cons_succ] at hcc ⊢
            exact hc c hcc
        · intro j hjl
          rcases j with _ | ⟨i, j⟩
          · simp at hjl
          · obtain ⟨e1, e2⟩ := hj j (by simpa using hjl)
            simp only [clip] at e1 e2
            constructor
            · simp only [clip, List.zipWith_cons_cons, e1, List.cons.injEq, and_true]
              by_cases hm : m = 1
              · simp [hm]
              · have : x ≠ 1 := fun h => hm (hone h).1
                simp [hm, this]
            · simp only [clip, List.zipWith_cons_cons, e2, List.cons.injEq, and_true]
              by_cases hm : k = 1
              · simp [hm]
              · have : x ≠ 1 := fun h => hm (hone h).2
                simp [hm, this]
      by_cases e1 : m = k
      · subst e1
        apply key m h1 (by rintro (h | h) <;> exact h) (fun h => ⟨h, h⟩)
        simp [bshapeSame, hr, bind, Except.bind, pure, Except.pure]
      · by_cases e2 : m = 1
        · apply key k h2 (by
            rintro (h | h)
            · rcases h2 with h2 | h2
              · exact h2
              · omega
            · exact h) (fun h => by omega)
          simp [bshapeSame, hr, e1, e2, bind, Except.bind, pure, Except.pure]
        · have hk : k = 1 := by
            rcases h1 with h1 | h1
            · rcases h2 with h2 | h2
              · omega
              · exact h2
            · omega
          apply key m h1 (by
            rintro (h | h)
            · exact h
            · rcases h1 with h1 | h1 <;> omega) (fun h => by omega)
          simp [bshapeSame, hr, e1, e2, hk, bind, Except.bind, pure, Except.pure]

theorem fits_ones (S : List ℕ) : Fits (List.replicate S.length 1) S := by
  induction S with
  | nil => exact .nil
  | cons n S ih => exact .cons (Or.inr rfl) ih

theorem bget_scalar {a : Arr} (h : a.shape = []) (j : List ℕ) : a.bget j = a.get [] := by
  simp [Arr.bget, h]

/-- Elementwise operation of two arrays broadcasting to `S`. -/
theorem zip_join (f : ℝ → ℝ → ℝ) {a b : Arr} {S : List ℕ} (ha : FitsR a.shape S)
    (hb : FitsR b.shape S) :
    ∃ r, Arr.zip f a b = .ok r ∧ FitsR r.shape S ∧
      (∀ c, Covers a.shape S c ∨ Covers b.shape S c → Covers r.shape S c) ∧
      ∀ j ∈ idx S, r.bget j = f (a.bget j) (b.bget j) := by
  have main : ∀ (s t : List ℕ), Fits s S → Fits t S →
      (bshape a.shape b.shape = bshapeSame s t) →
      (∀ j r : List ℕ, j.length = S.length → clip s (clip r j) = clip s j →
        a.bget (clip r j) = a.bget j ∨ (clip r j).length ≠ S.length) →
      (∀ j r : List ℕ, j.length = S.length → clip t (clip r j) = clip t j →
        b.bget (clip r j) = b.bget j ∨ (clip r j).length ≠ S.length) →
      (∀ c, Covers a.shape S c → c < S.length → Covers s S c) →
      (∀ c, Covers b.shape S c → c < S.length → Covers t S c) →
      ∃ r, Arr.zip f a b = .ok r ∧ FitsR r.shape S ∧
      (∀ c, Covers a.shape S c ∨ Covers b.shape S c → Covers r.shape S c) ∧
      ∀ j ∈ idx S, r.bget j = f (a.bget j) (b.bget j) := by
    intro s t hs ht he h1 h2 h3 h4
    obtain ⟨r, hr, hf, hc, hj⟩ := bshapeSame_join hs ht
    refine ⟨⟨r, fun j => f (a.bget j) (b.bget j)⟩, ?_, Or.inr hf, ?_, ?_⟩
    · simp [Arr.zip, he, hr, bind, Except.bind, pure, Except.pure]
    · intro c hcc
      by_cases hlt : c < S.length
      · exact hc c (hcc.imp (fun h => h3 c h hlt) (fun h => h4 c h hlt))
      · show r[c]? = S[c]?
        have hl : r.length = S.length := hf.length_eq
        rw [List.getElem?_eq_none (by omega), List.getElem?_eq_none (by omega)]
    · intro j hjm
      have hjl := length_of_mem_idx hjm
      have hrl : r.length = S.length := hf.length_eq
      have hcl : (clip r j).length = S.length := by simp [clip, hrl, hjl]
      rw [bget_eq (by simp [hjl, hrl])]
      show f (a.bget (clip r j)) (b.bget (clip r j)) = _
      obtain ⟨e1, e2⟩ := hj j hjl
      rcases h1 j r hjl e1 with h | h
      · rcases h2 j r hjl e2 with h' | h'
        · rw [h, h']
        · exact absurd hcl h'
      · exact absurd hcl h
  have hfull : ∀ (x : Arr), Fits x.shape S → ∀ j r : List ℕ, j.length = S.length →
      clip x.shape (clip r j) = clip x.shape j →
      x.bget (clip r j) = x.bget j ∨ (clip r j).length ≠ S.length := by
    intro x hx j r hjl he
    have hxl : x.shape.length = S.length := hx.length_eq
    by_cases hcl : (clip r j).length = S.length
    · left; rw [bget_eq (by omega), bget_eq (by omega), he]
    · right; exact hcl
  have hscal : ∀ (x : Arr), x.shape = [] → ∀ j r : List ℕ,
      x.bget (clip r j) = x.bget j ∨ (clip r j).length ≠ S.length :=
    fun x hx j r => Or.inl (by rw [bget_scalar hx, bget_scalar hx])
  have hcov : ∀ t : List ℕ, t = [] → ∀ c, Covers t S c → c < S.length →
      Covers (List.replicate S.length 1) S c := by
    rintro t rfl c hc hlt
    simp only [Covers, List.getElem?_nil] at hc
    rw [List.getElem?_eq_getElem hlt] at hc
    simp at hc
  by_cases hS : S = []
  · subst hS
    have hfix : ∀ t : List ℕ, FitsR t [] → Fits t [] := by
      rintro t (rfl | h)
      · exact .nil
      · exact h
    have ha := hfix _ ha
    have hb := hfix _ hb
    refine main a.shape b.shape ha hb ?_ (hfull a ha) (hfull b hb) (fun c h _ => h) (fun c h _ => h)
    simp [bshape, ha.length_eq, hb.length_eq]
  · rcases ha with ha | ha <;> rcases hb with hb | hb
    · refine ⟨⟨[], fun j => f (a.bget j) (b.bget j)⟩, ?_, Or.inl rfl, ?_, ?_⟩
      · simp [Arr.zip, ha, hb, bshape, bshapeSame, bind, Except.bind, pure, Except.pure]
      · rw [ha, hb]; rintro c (h | h) <;> exact h
      · intro j _
        rw [bget_scalar rfl]
        show f (a.bget []) (b.bget []) = _
        rw [bget_scalar ha, bget_scalar hb, bget_scalar ha, bget_scalar hb]
    · refine main (List.replicate S.length 1) b.shape (fits_ones S) hb ?_
        (fun j r _ _ => hscal a ha j r) (hfull b hb) (hcov _ ha) (fun c h _ => h)
      have : b.shape.length = S.length := hb.length_eq
      simp [bshape, ha, this]
    · refine main a.shape (List.replicate S.length 1) ha (fits_ones S) ?_
        (hfull a ha) (fun j r _ _ => hscal b hb j r) (fun c h _ => h) (hcov _ hb)
      have : a.shape.length = S.length := ha.length_eq
      simp [bshape, hb, this]
    · refine main a.shape b.shape ha hb ?_ (hfull a ha) (hfull b hb) (fun c h _ => h)
        (fun c h _ => h)
      have h1 : a.shape.length = S.length := ha.length_eq
      have h2 : b.shape.length = S.length := hb.length_eq
      simp [bshape, h1, h2]

theorem foldlM_zip (f : ℝ → ℝ → ℝ) (S : List ℕ) (qs : List Arr) :
    ∀ (a : Arr), FitsR a.shape S → (∀ q ∈ qs, FitsR q.shape S) →
      ∃ r, qs.foldlM (Arr.zip f) a = .ok r ∧ FitsR r.shape S ∧
        (∀ c, (∃ q ∈ a :: qs, Covers q.shape S c) → Covers r.shape S c) ∧
        ∀ j ∈ idx S, r.bget j = (qs.map (Arr.bget · j)).foldl f (a.bget j) := by
  induction qs with
  | nil =>
    intro a ha _
    exact ⟨a, rfl, ha, fun c ⟨q, hq, h⟩ => by simp at hq; exact hq ▸ h, fun j _ => rfl⟩
  | cons q qs ih =>
    intro a ha hqs
    obtain ⟨r, h1, h2, h3, h4⟩ := zip_join f ha (hqs q (by simp))
    obtain ⟨r', g1, g2, g3, g4⟩ := ih r h2 (fun x hx => hqs x (by simp [hx]))
    refine ⟨r', ?_, g2, ?_, ?_⟩
    · simp only [List.foldlM_cons, h1, bind, Except.bind]; exact g1
    · rintro c ⟨x, hx, hc⟩
      apply g3
      rcases List.mem_cons.mp hx with rfl | hx
      · exact ⟨r, by simp, h3 c (Or.inl hc)⟩
      · rcases List.mem_cons.mp hx with rfl | hx
        · exact ⟨r, by simp, h3 c (Or.inr hc)⟩
        · exact ⟨x, by simp [hx], hc⟩
    · intro j hj
      rw [g4 j hj, h4 j hj]; rfl

/-- A product of arrays that together cover all axes of `S`. -/
theorem applyProdArr_ok (u : Bool) {qs : List Arr} {S : List ℕ} (hne : qs ≠ [])
    (hf : ∀ q ∈ qs, FitsR q.shape S)
    (hc : ∀ c < S.length, ∃ q ∈ qs, Covers q.shape S c) :
    ∃ r, applyProdArr u qs = .ok r ∧ r.shape = S ∧
      ∀ j ∈ idx S, applyProd u (qs.map (Arr.bget · j)) = .ok (r.get j) := by
  rcases qs with _ | ⟨a, qs⟩
  · exact absurd rfl hne
  obtain ⟨r, h1, h2, h3, h4⟩ := foldlM_zip (fun x y => if u then x + y else x * y) S qs a
    (hf a (by simp)) (fun q hq => hf q (by simp [hq]))
  have hS : r.shape = S := by
    rcases h2 with h2 | h2
    · by_contra hne
      have : 0 < S.length := by
        rcases S with _ | _
        · exact absurd h2 hne
        · simp
      have := h3 0 (hc 0 this)
      rw [Covers, h2] at this
      rw [List.getElem?_eq_getElem ‹0 < S.length›] at this
      simp at this
    · apply List.ext_getElem?
      intro c
      by_cases hlt : c < S.length
      · exact h3 c (hc c hlt)
      · have hl : r.shape.length = S.length := h2.length_eq
        rw [List.getElem?_eq_none (by omega), List.getElem?_eq_none (by omega)]
  refine ⟨r, h1, hS, ?_⟩
  intro j hj
  rw [← bget_self (by rw [hS]; exact hj), h4 j hj]
  rfl

theorem bget_map (f : ℝ → ℝ) (a : Arr) (j : List ℕ) : (a.map f).bget j = f (a.bget j) := rfl

theorem encodeOffs_iscomplex (r : ℝ) : (encodeOffs r).iscomplex = true := by
  unfold encodeOffs; split <;> [skip; split] <;> rfl

theorem prodPscale_iscomplex {l : List PSpec} {s : PScale} (h : prodPscale l none = .ok (some s)) :
    s.iscomplex = l.any PSpec.iscomplex := by
  unfold prodPscale at h
  split at h
  · cases h
  · simp only [Option.getD_none, bind, Except.bind, pure, Except.pure] at h
    cases hu : l.any PSpec.iscomplex <;> simp only [hu, if_true, Bool.false_eq_true, if_false] at h
    · split at h
      · cases h
      · cases h; rfl
    · split at h
      · cases h
      · cases h; exact encodeOffs_iscomplex _

/-- `prod_rule` without a requested scale, in terms of its last step. -/
theorem prodRule_eq {ss : List PScale} {s : PScale} (hssne : ss ≠ [])
    (hs : prodPscale (ss.map PScale.spec) none = .ok (some s)) (xs : List ℝ)
    (hxl : xs.length = ss.length) :
    prodRule xs (ss.map PScale.spec) none none =
      (applyProd (ss.any PScale.iscomplex)
        (if ss.all PScale.iscomplex || !ss.any PScale.iscomplex then xs
         else List.zipWith (toCommon (ss.any PScale.iscomplex)) xs (ss.map PScale.spec))).map
        fun y => (y, s.spec) := by
  have hemp : ss.isEmpty = false := by cases ss <;> simp_all
  have hany : (ss.map PScale.spec).any PSpec.iscomplex = ss.any PScale.iscomplex := by
    rw [List.any_map]; congr 1; funext t; exact spec_iscomplex t
  have hall : (ss.map PScale.spec).all PSpec.iscomplex = ss.all PScale.iscomplex := by
    rw [List.all_map]; congr 1; funext t; exact spec_iscomplex t
  have hcx := prodPscale_iscomplex hs
  have hs' : prodPscale (ss.map PScale.spec) (some (ss.any PScale.iscomplex)) = .ok (some s) := by
    rw [← hs, ← hany]; rfl
  simp only [prodRule, Option.getD_none, hany, hs', bind, Except.bind, pure, Except.pure,
    List.length_map, hxl, ne_eq, not_true_eq_false, if_false]
  rw [hany] at hcx
  simp only [hcx, not_true_eq_false, if_false, spec_iscomplex, beq_self_eq_true, specEq_self,
    List.isEmpty_map, hemp, Bool.not_false, Bool.and_true, hall, Bool.true_and]
  split
  · cases applyProd _ xs <;> rfl
  · cases applyProd _ _ <;> rfl

/-- `prod_rule` on arrays is `prod_rule` on their entries. -/
theorem prodRuleArr_ok {qs : List Arr} {ss : List PScale} {S : List ℕ} (hne : qs ≠ [])
    (hl : qs.length = ss.length) (hf : ∀ q ∈ qs, FitsR q.shape S)
    (hc : ∀ c < S.length, ∃ q ∈ qs, Covers q.shape S c) {s : PScale}
    (hs : prodPscale (ss.map PScale.spec) none = .ok (some s)) :
    ∃ r, prodRuleArr qs ss = .ok r ∧ r.shape = S ∧
      ∀ j ∈ idx S, prodRule (qs.map (Arr.bget · j)) (ss.map PScale.spec) none none =
        .ok (r.get j, s.spec) := by
  have hssne : ss ≠ [] := by rintro rfl; simp at hl; exact hne hl
  have hrule := prodRule_eq hssne hs
  unfold prodRuleArr
  rw [if_neg (by simpa using hl)]
  by_cases hh : ss.all PScale.iscomplex || !ss.any PScale.iscomplex
  · rw [if_pos hh]
    obtain ⟨r, h1, h2, h3⟩ := applyProdArr_ok (ss.any PScale.iscomplex) hne hf hc
    refine ⟨r, h1, h2, ?_⟩
    intro j hj
    rw [hrule _ (by simpa using hl), if_pos hh, h3 j hj]; rfl
  · rw [if_neg hh]
    set u := ss.any PScale.iscomplex
    set qs' := List.zipWith (fun a t => Arr.map (fun x => toCommon u x t.spec) a) qs ss with hqs'
    have hshape : qs'.map Arr.shape = qs.map Arr.shape := by
      rw [hqs', List.map_zipWith]
      have : ∀ (qs : List Arr) (ss : List PScale), qs.length = ss.length →
          List.zipWith (fun a t => (Arr.map (fun x => toCommon u x t.spec) a).shape) qs ss =
            qs.map Arr.shape := by
        intro qs
        induction qs with
        | nil => intro ss _; cases ss <;> rfl
        | cons q qs ih =>
          intro ss hl
          rcases ss with _ | ⟨t, ss⟩
          · simp at hl
          · simp only [List.zipWith_cons_cons, List.map_cons, ih ss (by simpa using hl)]; rfl
      exact this qs ss hl
    have hq : ∀ q' ∈ qs', ∃ q ∈ qs, q'.shape = q.shape := by
      intro q' hq'
      have : q'.shape ∈ qs.map Arr.shape := by rw [← hshape]; exact List.mem_map_of_mem hq'
      obtain ⟨q, h1, h2⟩ := List.mem_map.mp this
      exact ⟨q, h1, h2.symm⟩
    have hq2 : ∀ q ∈ qs, ∃ q' ∈ qs', q'.shape = q.shape := by
      intro q hq
      have : q.shape ∈ qs'.map Arr.shape := by rw [hshape]; exact List.mem_map_of_mem hq
      obtain ⟨q', h1, h2⟩ := List.mem_map.mp this
      exact ⟨q', h1, h2⟩
    obtain ⟨r, h1, h2, h3⟩ := applyProdArr_ok u (qs := qs') (S := S)
      (by
        intro h0
        rw [h0] at hshape
        simp at hshape
        exact hne hshape)
      (by
        intro q' hq'
        obtain ⟨q, h, he⟩ := hq q' hq'
        rw [he]; exact hf q h)
      (by
        intro c hlt
        obtain ⟨q, h, hcov⟩ := hc c hlt
        obtain ⟨q', h', he⟩ := hq2 q h
        exact ⟨q', h', by rw [he]; exact hcov⟩)
    refine ⟨r, h1, h2, ?_⟩
    intro j hj
    rw [hrule _ (by simpa using hl), if_neg hh]
    have : List.zipWith (toCommon u) (qs.map (Arr.bget · j)) (ss.map PScale.spec) =
        qs'.map (Arr.bget · j) := by
      rw [hqs', List.map_zipWith, List.zipWith_map]; rfl
    rw [this, h3 j hj]; rfl

end Probayes
