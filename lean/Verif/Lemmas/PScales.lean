import Verif.Spec.Scale
import Mathlib.Tactic.Linarith
import Mathlib.Tactic.FieldSimp
import Mathlib.Tactic.NormNum

namespace Probayes

theorem npz_pos : 0 < npz := by unfold npz; norm_num
theorem npz_lt_one : npz < 1 := by unfold npz; norm_num
theorem one_lt_npi : 1 < npi := by unfold npi; norm_num
theorem npi_pos : 0 < npi := lt_trans one_pos one_lt_npi
theorem nni_neg : nni < 0 := by unfold nni; linarith [npi_pos]
theorem inv_npi_lt_npz : 1 / npi < npz := by unfold npz npi; norm_num
theorem logNpi_pos : 0 < logNpi := Real.log_pos one_lt_npi
theorem exp_logNpi : Real.exp logNpi = npi := Real.exp_log npi_pos

theorem exp_nni_lt_npz : Real.exp nni < npz := by
  have h1 : npi < Real.exp npi := by
    have := Real.add_one_le_exp npi
    linarith
  have h2 : Real.exp nni = 1 / Real.exp npi := by
    unfold nni; rw [Real.exp_neg, one_div]
  rw [h2]
  exact lt_trans (one_div_lt_one_div_of_lt npi_pos h1) inv_npi_lt_npz

theorem nni_lt_log_npz : nni < Real.log npz := by
  rw [Real.lt_log_iff_exp_lt npz_pos]; exact exp_nni_lt_npz

theorem logpOffs_log (re im : ℝ) : logpOffs (.log re im) = Spec.offset re im := id rfl
theorem logpOffs_lin (c : ℝ) : logpOffs (.lin c) = Real.log c := id rfl

end Probayes
