/-
Facts about conditional distributions of one variable given another.
-/
import Verif.Model.Evolve
import Verif.Spec.Evolve
import Verif.Props.PDMarg2
import Verif.Props.PDRekey
import Verif.Props.PDDiv
import Verif.Props.PDSort
import Verif.Lemmas.Infer

namespace Probayes

variable {fmt : Val → Str}

namespace Spec.Kernel

variable {d : PD} {y x sfx : Str} {ys xs : List ℚ} {T : Matrix (Fin ys.length) (Fin xs.length) ℝ}

theorem keys (h : Spec.Kernel fmt d y x sfx ys xs T) (k : Str) : k ∈ d.keylist ↔ k = y ∨ k = x := by
  have := h.wf.keys k
  rw [h.marg, h.cond] at this
  simpa [Dict.keys] using this

theorem ne (h : Spec.Kernel fmt d y x sfx ys xs T) : y ≠ x := by
  rintro rfl
  have := h.axes.1.symm.trans h.axes.2
  simp at this

theorem axis_cases (h : Spec.Kernel fmt d y x sfx ys xs T) {k : Str} {a : ℕ} (ha : d.axis k = some a) :
    (k = y ∧ a = 0) ∨ (k = x ∧ a = 1) := by
  have hk : k ∈ d.keylist := h.wf.dimKeys k (Dict.mem_keys_of_get? (join_eq_some.mp ha))
  rcases (h.keys k).mp hk with rfl | rfl
  · rw [h.axes.1] at ha; exact .inl ⟨rfl, by simpa using ha.symm⟩
  · rw [h.axes.2] at ha; exact .inr ⟨rfl, by simpa using ha.symm⟩

theorem own (h : Spec.Kernel fmt d y x sfx ys xs T) (k : Str) : Spec.OwnAxis d k := by
  intro k' a ha ha'
  rcases h.axis_cases ha with ⟨rfl, rfl⟩ | ⟨rfl, rfl⟩ <;> rcases h.axis_cases ha' with ⟨rfl, h'⟩ | ⟨rfl, h'⟩ <;>
    first | rfl | simp at h'

theorem shape (h : Spec.Kernel fmt d y x sfx ys xs T) : d.shape = [ys.length, xs.length] := by
  obtain ⟨a, ha, h0⟩ := axis_of_arr h.wf h.succ
  obtain ⟨b, hb, h1⟩ := axis_of_arr h.wf h.pred
  rw [h.axes.1, Option.some.injEq] at ha
  rw [h.axes.2, Option.some.injEq] at hb
  subst ha hb
  have hl : d.shape.length ≤ 2 := by
    rw [h.wf.rank]
    by_contra hc
    obtain ⟨k, hk⟩ := h.wf.cover 2 (by omega)
    rcases h.axis_cases hk with ⟨_, h⟩ | ⟨_, h⟩ <;> simp at h
  match hs : d.shape with
  | [] => simp [hs] at h0
  | [_] => simp [hs] at h1
  | [u, w] => simp [hs] at h0 h1; simp [h0, h1]
  | _ :: _ :: _ :: _ => simp [hs] at hl

end Spec.Kernel

/-- Two axes in order. -/
theorem two_axes {d : PD} (h : d.WF fmt) {y x : Str} (hk : ∀ k ∈ d.keylist, k = y ∨ k = x) {a b : ℕ}
    (ha : d.axis y = some a) (hb : d.axis x = some b) (hab : a < b) : a = 0 ∧ b = 1 := by
  have hbn : b < d.ndim := by
    obtain ⟨_, xs, _, _, hs, _⟩ := h.axisAt hb
    have := (List.getElem?_eq_some_iff.mp hs).1
    rwa [h.rank] at this
  have hkey : ∀ c < d.ndim, c = a ∨ c = b := by
    intro c hc
    obtain ⟨k, hkc⟩ := h.cover c hc
    rcases hk k (h.dimKeys k (Dict.mem_keys_of_get? (join_eq_some.mp hkc))) with rfl | rfl
    · rw [ha, Option.some.injEq] at hkc; exact .inl hkc.symm
    · rw [hb, Option.some.injEq] at hkc; exact .inr hkc.symm
  have h0 := hkey 0 (by omega)
  have h1 := hkey 1 (by omega)
  omega

/-- Three axes in order. -/
theorem three_axes {d : PD} (h : d.WF fmt) {z y x : Str} (hk : ∀ k ∈ d.keylist, k = z ∨ k = y ∨ k = x)
    {a b c : ℕ} (ha : d.axis z = some a) (hb : d.axis y = some b) (hc : d.axis x = some c)
    (hab : a < b) (hbc : b < c) : a = 0 ∧ b = 1 ∧ c = 2 ∧ d.shape.length = 3 := by
  have hcn : c < d.ndim := by
    obtain ⟨_, xs, _, _, hs, _⟩ := h.axisAt hc
    have := (List.getElem?_eq_some_iff.mp hs).1
    rwa [h.rank] at this
  have hkey : ∀ n < d.ndim, n = a ∨ n = b ∨ n = c := by
    intro n hn
    obtain ⟨k, hkc⟩ := h.cover n hn
    rcases hk k (h.dimKeys k (Dict.mem_keys_of_get? (join_eq_some.mp hkc))) with rfl | rfl | rfl
    · rw [ha, Option.some.injEq] at hkc; exact .inl hkc.symm
    · rw [hb, Option.some.injEq] at hkc; exact .inr (.inl hkc.symm)
    · rw [hc, Option.some.injEq] at hkc; exact .inr (.inr hkc.symm)
  have h0 := hkey 0 (by omega)
  have h1 := hkey 1 (by omega)
  have h2 := hkey 2 (by omega)
  have h3 : ¬ 3 < d.ndim := fun h3 => by have := hkey 3 h3; omega
  rw [h.rank]
  omega

theorem eq_singleton {K V : Type} [DecidableEq K] {l : Dict K V} (hn : l.keys.Nodup) {c : K × V}
    (h : ∀ kt, kt ∈ l ↔ kt = c) : l = [c] := by
  match l with
  | [] => simpa using (h c).mpr rfl
  | [e] => simpa using (h e).mp (by simp)
  | e :: f :: l =>
    have h1 := (h e).mp (by simp)
    have h2 := (h f).mp (by simp)
    subst h1 h2
    simp [Dict.keys] at hn

section
variable {a b : PD} {z y x sfx : Str} {zs ys xs : List ℚ}
  {S : Matrix (Fin zs.length) (Fin ys.length) ℝ} {T : Matrix (Fin ys.length) (Fin xs.length) ℝ}

/-- A conditional of `z` given `y` and one of `y` given `x` can be multiplied. -/
theorem cond_factors (A : Spec.Kernel fmt a z y sfx zs ys S) (B : Spec.Kernel fmt b y x sfx ys xs T)
    (hzx : z ≠ x) (hzs : zs ≠ []) (hys : ys ≠ []) (hxs : xs ≠ []) :
    Spec.Factors fmt [a, b] ∧ Spec.Plainly [a, b] := by
  have hzy := A.ne
  have hyx := B.ne
  refine ⟨⟨by simp, ?_, ?_, ?_, ?_, ?_, ?_, ?_⟩, ?_, ?_, ?_⟩
  · simp [A.wf, B.wf]
  · simp only [List.mem_cons, List.not_mem_nil, or_false, forall_eq_or_imp, forall_eq]
    refine ⟨?_, ?_⟩ <;> intro n hn
    · rw [A.shape] at hn
      simp only [List.mem_cons, List.not_mem_nil, or_false] at hn
      rcases hn with rfl | rfl <;> exact List.length_pos_of_ne_nil ‹_›
    · rw [B.shape] at hn
      simp only [List.mem_cons, List.not_mem_nil, or_false] at hn
      rcases hn with rfl | rfl <;> exact List.length_pos_of_ne_nil ‹_›
  · simp [A.marg, B.marg]
  · simp [A.marg, B.marg, Dict.keys, hzy]
  · simp [A.marg, B.marg, A.cond, B.cond, Dict.keys, Dict.get?, hzy.symm, hzx.symm, hyx.symm]
  · simp [A.marg, B.marg, A.cond, B.cond, Dict.keys, Spec.Unmet, hzy.symm]
  · have hcommon : ∀ k, k ∈ a.keylist → k ∈ b.keylist → a.values k = b.values k := by
      intro k hk hk'
      rcases (A.keys k).mp hk with rfl | rfl
      · rcases (B.keys k).mp hk' with h | h
        · exact absurd h hzy
        · exact absurd h hzx
      · rw [A.pred, B.succ]
    simp only [List.mem_cons, List.not_mem_nil, or_false, forall_eq_or_imp, forall_eq]
    exact ⟨⟨fun _ _ _ => trivial, hcommon⟩, fun k hk hk' => (hcommon k hk' hk).symm, fun _ _ _ => trivial⟩
  · simp [A.own, B.own]
  · simp [A.cond, B.cond, Dict.keys, hyx]
  · refine List.pairwise_pair.mpr fun k n hv hk => ?_
    have hk' : k = z ∨ k = y := by
      rcases hk' : Dict.get? a.vals k with _ | v
      · simp [PD.values, hk'] at hv
      · exact (A.keys k).mp (Dict.mem_keys_of_get? hk')
    rcases hk' with rfl | rfl
    · rw [A.succ] at hv; simp at hv
    · rw [A.pred] at hv; simp at hv

/-- Summing out the common variable of the product gives the matrix product. -/
theorem cond_core (A : Spec.Kernel fmt a z y sfx zs ys S) (B : Spec.Kernel fmt b y x sfx ys xs T)
    (hzx : z ≠ x) (hzs : zs ≠ []) (hys : ys ≠ []) (hxs : xs ≠ []) {J : PD} (hJ : J.WF fmt)
    (P : Spec.Product [a, b] J) (hread : J.shape = [zs.length, ys.length, xs.length] →
      (∀ (i : Fin zs.length) (l : Fin ys.length) (j : Fin xs.length),
        J.at [i.1, l.1, j.1] = S i l * T l j) → Spec.Readable J) :
    ∃ r, J.marginalise fmt [y] = .ok r ∧ r.pscale = J.pscale ∧
      ∃ U, Spec.Kernel fmt r z x sfx zs xs U ∧
        ∀ i j, U i j = Spec.value J.pscale (rescaleE ((S * T) i j) (.lin 1) J.pscale) := by
  have hzy := A.ne
  have hyx := B.ne
  obtain ⟨F, G⟩ := cond_factors A B hzx hzs hys hxs
  have hm : J.marg = [(z, z ++ sfx), (y, y ++ sfx)] := by rw [P.marg]; simp [A.marg, B.marg]
  have hc : J.cond = [(x, x ++ sfx)] := by
    refine eq_singleton hJ.condSide.1 fun kt => ?_
    rw [P.cond]
    simp only [List.mem_cons, List.not_mem_nil, or_false, exists_eq_or_imp, exists_eq_left, A.cond, B.cond,
      Spec.Unmet, forall_eq_or_imp, forall_eq, A.marg, B.marg, Dict.keys, List.map_cons, List.map_nil]
    constructor
    · rintro ⟨rfl | rfl, h1, h2⟩
      · exact absurd rfl h2
      · rfl
    · rintro rfl
      exact ⟨.inr rfl, hzx.symm, hyx.symm⟩
  have hkeys : ∀ k, k ∈ J.keylist ↔ k = z ∨ k = y ∨ k = x := by
    intro k
    have := hJ.keys k
    rw [hm, hc] at this
    simpa [Dict.keys, or_assoc] using this
  have hvz : J.values z = some (.arr [zs.length] zs) := by
    rw [P.values a (by simp) z ((A.keys z).mpr (.inl rfl)), A.succ]
  have hvy : J.values y = some (.arr [ys.length] ys) := by
    rw [P.values a (by simp) y ((A.keys y).mpr (.inr rfl)), A.pred]
  have hvx : J.values x = some (.arr [xs.length] xs) := by
    rw [P.values b (by simp) x ((B.keys x).mpr (.inr rfl)), B.pred]
  obtain ⟨az, haz, sz⟩ := axis_of_arr hJ hvz
  obtain ⟨ay, hay, sy⟩ := axis_of_arr hJ hvy
  obtain ⟨ax, hax, sx⟩ := axis_of_arr hJ hvx
  have o1 : az < ay := by
    have := P.margOrder
    rw [hm] at this
    simp only [Dict.keys, List.map_cons, List.map_nil, List.pairwise_pair] at this
    exact this az ay haz hay
  have o2 : ay < ax := P.margFirst y (by simp [hm, Dict.keys]) x (by simp [hc, Dict.keys]) ay ax hay hax
  obtain ⟨rfl, rfl, rfl, hlen⟩ := three_axes hJ (fun k hk => (hkeys k).mp hk) haz hay hax o1 o2
  have hshape : J.shape = [zs.length, ys.length, xs.length] := by
    match hs : J.shape with
    | [u, v, w] => simp [hs] at sz sy sx; simp [sz, sy, sx]
    | [] | [_] | [_, _] | _ :: _ :: _ :: _ :: _ => simp [hs] at hlen
  -- entries of the product
  have hent : ∀ (i : Fin zs.length) (l : Fin ys.length) (j : Fin xs.length),
      J.at [i.1, l.1, j.1] = S i l * T l j := by
    intro i l j
    have := P.entry [i.1, l.1, j.1] (by rw [hshape, mem_idx]; simp) [[i.1, l.1], [l.1, j.1]]
      (.cons ⟨by rw [A.shape, mem_idx]; simp, ?_⟩ (.cons ⟨by rw [B.shape, mem_idx]; simp, ?_⟩ .nil))
    · rw [this]; simp [A.entry, B.entry]
    · intro k α β hα hβ
      rcases A.axis_cases hα with ⟨rfl, rfl⟩ | ⟨rfl, rfl⟩
      · rw [haz] at hβ; simp at hβ; simp [← hβ]
      · rw [hay] at hβ; simp at hβ; simp [← hβ]
    · intro k α β hα hβ
      rcases B.axis_cases hα with ⟨rfl, rfl⟩ | ⟨rfl, rfl⟩
      · rw [hay] at hβ; simp at hβ; simp [← hβ]
      · rw [hax] at hβ; simp at hβ; simp [← hβ]
  obtain ⟨r, hr, hrw, R, hstored⟩ := marginalise_core fmt J [y] hJ (product_pos F P hJ) (hread hshape hent)
    (by simp [hm, Dict.keys, hay]) (fun k _ => P.own k) P.order ⟨z, (hkeys z).mpr (.inl rfl), by simpa using hzy⟩
  have hrk : ∀ k, k ∈ r.keylist ↔ k = z ∨ k = x := by
    intro k
    rw [R.keylist, List.mem_filter, hkeys]
    simp only [List.mem_singleton, decide_not, Bool.not_eq_true', decide_eq_false_iff_not]
    constructor
    · rintro ⟨rfl | rfl | rfl, h⟩
      · exact .inl rfl
      · exact absurd rfl h
      · exact .inr rfl
    · rintro (rfl | rfl)
      · exact ⟨.inl rfl, hzy⟩
      · exact ⟨.inr (.inr rfl), hyx.symm⟩
  have hrz : r.values z = some (.arr [zs.length] zs) := by rw [R.values z ((hrk z).mpr (.inl rfl)), hvz]
  have hrx : r.values x = some (.arr [xs.length] xs) := by rw [R.values x ((hrk x).mpr (.inr rfl)), hvx]
  obtain ⟨bz, hbz, tz⟩ := axis_of_arr hrw hrz
  obtain ⟨bx, hbx, tx⟩ := axis_of_arr hrw hrx
  obtain ⟨rfl, rfl⟩ := two_axes hrw (fun k hk => (hrk k).mp hk) hbz hbx
    ((R.order z x 0 2 bz bx haz hax hbz hbx).mpr (by omega))
  have hrshape : r.shape = [zs.length, xs.length] := by
    have hl : r.shape.length ≤ 2 := by
      rw [hrw.rank]
      by_contra hc'
      obtain ⟨k, hk⟩ := hrw.cover 2 (by omega)
      rcases (hrk k).mp (hrw.dimKeys k (Dict.mem_keys_of_get? (join_eq_some.mp hk))) with rfl | rfl
      · rw [hbz] at hk; simp at hk
      · rw [hbx] at hk; simp at hk
    match hs : r.shape with
    | [u, w] => simp [hs] at tz tx; simp [tz, tx]
    | [] | [_] => simp [hs] at tx
    | _ :: _ :: _ :: _ => simp [hs] at hl
  have haxJ : ∀ k α, J.axis k = some α → (k = z ∧ α = 0) ∨ (k = y ∧ α = 1) ∨ (k = x ∧ α = 2) := by
    intro k α hk
    rcases (hkeys k).mp (hJ.dimKeys k (Dict.mem_keys_of_get? (join_eq_some.mp hk))) with rfl | rfl | rfl
    · rw [haz] at hk; simp at hk; simp [← hk]
    · rw [hay] at hk; simp at hk; simp [← hk]
    · rw [hax] at hk; simp at hk; simp [← hk]
  have hsum : ∀ (i : Fin zs.length) (j : Fin xs.length), Spec.sumAt J r [i.1, j.1] = (S * T) i j := by
    intro i j
    classical
    rw [Matrix.mul_apply, Spec.sumAt]
    symm
    refine Finset.sum_bij (fun l _ => [i.1, l.1, j.1]) ?_ ?_ ?_ ?_
    · intro l _
      rw [Finset.mem_filter, hshape, mem_idx]
      refine ⟨by simp, ?_⟩
      intro k α β hα hβ
      rcases haxJ k α hα with ⟨rfl, rfl⟩ | ⟨rfl, rfl⟩ | ⟨rfl, rfl⟩
      · rw [hbz] at hβ; simp at hβ; simp [← hβ]
      · have := (hrk k).mp (hrw.dimKeys k (Dict.mem_keys_of_get? (join_eq_some.mp hβ)))
        rcases this with h | h
        · exact absurd h.symm hzy
        · exact absurd h hyx
      · rw [hbx] at hβ; simp at hβ; simp [← hβ]
    · intro l _ l' _ h
      simpa [Fin.ext_iff] using h
    · intro ix hix
      obtain ⟨h1, h2⟩ := Finset.mem_filter.mp hix
      rw [hshape, mem_idx] at h1
      have e0 := h2 z 0 0 haz hbz
      have e2 := h2 x 2 1 hax hbx
      match ix, h1 with
      | [u, v, w], h1 =>
        simp at h1 e0 e2
        refine ⟨⟨v, h1.2.1⟩, Finset.mem_univ _, ?_⟩
        simp [e0, e2]
    · intro l _
      exact (hent i l j).symm
  refine ⟨r, hr, R.pscale, fun i j => r.at [i.1, j.1], ⟨hrw, ?_, by rw [R.cond, hc], hrz, hrx, ⟨hbz, hbx⟩,
    fun _ _ => rfl⟩, ?_⟩
  · rw [R.marg, hm]; simp [hzy]
  · intro i j
    rw [← hsum, ← hstored _ (by rw [hrshape, mem_idx]; simp), ← R.pscale]
    rfl

end

/-- Converting to plain probabilities. -/
theorem cond_rescaled {d : PD} {y x sfx : Str} {ys xs : List ℚ}
    {T : Matrix (Fin ys.length) (Fin xs.length) ℝ} (h : Spec.Kernel fmt d y x sfx ys xs T)
    (hys : ys ≠ []) (hxs : xs ≠ []) (hv : Spec.Valid d.pscale)
    (hun : ∀ (i : Fin ys.length) (j : Fin xs.length),
      Spec.Unclamped (d.prob.get [i.1, j.1]) d.pscale (.lin 1)) :
    ∃ r, d.rescaled fmt .none = .ok r ∧ r.pscale = .lin 1 ∧ Spec.Kernel fmt r y x sfx ys xs T := by
  have hpos : d.Pos := by
    intro n hn
    rw [h.shape] at hn
    simp only [List.mem_cons, List.not_mem_nil, or_false] at hn
    rcases hn with rfl | rfl <;> exact List.length_pos_of_ne_nil ‹_›
  obtain ⟨r, h1, h2, F, h3, h4, h5⟩ := C25_rescaled fmt d .none (.lin 1) h.wf hpos
    (by simp [evalPscale]) hv one_pos (by
      intro ix hix
      rw [h.shape, mem_idx] at hix
      match ix, hix with
      | [i, j], hix =>
        simp at hix
        exact hun ⟨i, hix.1⟩ ⟨j, hix.2⟩)
  refine ⟨r, h1, h4, h2, by rw [F.marg, h.marg], by rw [F.cond, h.cond], by rw [h3, h.succ],
    by rw [h3, h.pred], by rw [F.axis, F.axis]; exact h.axes, ?_⟩
  intro i j
  rw [h5 _ (by rw [F.shape, h.shape, mem_idx]; simp), h.entry]

/-- Renaming the two variables. -/
theorem cond_rekey {d : PD} {y x sfx y' x' : Str} {ys xs : List ℚ}
    {T : Matrix (Fin ys.length) (Fin xs.length) ℝ} (h : Spec.Kernel fmt d y x sfx ys xs T)
    (hys : ys ≠ []) (hxs : xs ≠ []) (hne : y' ≠ x') (hn : Spec.Names [(x, x'), (y, y')] [x, y]) :
    ∃ r, d.rekey fmt [(x, x'), (y, y')] = .ok r ∧ r.pscale = d.pscale ∧
      Spec.Kernel fmt r y' x' sfx ys xs T := by
  have hyx := h.ne
  have ex : Spec.rename [(x, x'), (y, y')] x = x' := by simp [Spec.rename, Dict.get?]
  have ey : Spec.rename [(x, x'), (y, y')] y = y' := by simp [Spec.rename, Dict.get?, hyx.symm]
  have hpos : d.Pos := by
    intro n hn
    rw [h.shape] at hn
    simp only [List.mem_cons, List.not_mem_nil, or_false] at hn
    rcases hn with rfl | rfl <;> exact List.length_pos_of_ne_nil ‹_›
  obtain ⟨r, h1, h2, R, hm, hc, hat⟩ := C28_rekey fmt d [(x, x'), (y, y')] h.wf hpos
    (by
      refine (List.nodup_map_iff_inj_on h.wf.nodup).mpr ?_
      intro k hk k' hk' he
      rcases (h.keys k).mp hk with rfl | rfl <;> rcases (h.keys k').mp hk' with rfl | rfl
      · rfl
      · rw [ex, ey] at he; exact absurd he hne
      · rw [ex, ey] at he; exact absurd he.symm hne
      · rfl)
    (fun k hk => hn k (by rcases (h.keys k).mp hk with rfl | rfl <;> simp))
  have hyk := (h.keys y).mpr (.inl rfl)
  have hxk := (h.keys x).mpr (.inr rfl)
  have htext : ∀ k, Spec.renameText [(x, x'), (y, y')] k (k ++ sfx)
      = Spec.rename [(x, x'), (y, y')] k ++ sfx := by
    intro k
    unfold Spec.renameText
    split
    · rename_i hs
      have : sfx = [] := by simpa using hs
      simp [this]
    · simp
  have one : ∀ {l : Dict Str Str} {k s : Str}, l.keys = [k] → Dict.get? l k = some s → l = [(k, s)] := by
    intro l k s hk hg
    match l with
    | [] => simp [Dict.keys] at hk
    | [(k', s')] =>
      simp [Dict.keys] at hk
      subst hk
      simpa [Dict.get?] using hg
    | _ :: _ :: _ => simp [Dict.keys] at hk
  refine ⟨r, h1, R.pscale, h2, ?_, ?_, ?_, ?_, ⟨?_, ?_⟩, ?_⟩
  · refine one (by rw [R.marg, h.marg]; simp [Dict.keys, ey]) ?_
    have := hm y (y ++ sfx) (by simp [h.marg, Dict.get?])
    rwa [htext, ey] at this
  · refine one (by rw [R.cond, h.cond]; simp [Dict.keys, ex]) ?_
    have := hc x (x ++ sfx) (by simp [h.cond, Dict.get?])
    rwa [htext, ex] at this
  · rw [← ey, R.values y hyk, h.succ]
  · rw [← ex, R.values x hxk, h.pred]
  · rw [← ey, R.axis y hyk, h.axes.1]
  · rw [← ex, R.axis x hxk, h.axes.2]
  · intro i j; rw [hat, h.entry]

end Probayes
