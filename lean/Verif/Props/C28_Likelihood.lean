import Verif.Lemmas.TwoPoint
import Verif.Props.C24_Values

/-!
# Where the process noise is wrong, the likelihood is wrong (C01, C22, C28)

`Scale` does not scale the process noise, and the underdamped `SHO` sets small entries of it to zero. In both cases
`log_probability` of two data points is not the Gaussian log density of the kernel's own covariance matrix.
-/

namespace Verif
open Matrix

/-- The kernel a scalar multiple should be. -/
theorem SSM.Regular.scaleQ {k : SSM} (hk : k.Regular) {G : Matrix k.n k.n ℝ} (hG : k.CovModel G) (name : String) {c : ℝ} (hc : 0 < c) :
    ((k.scale name c).withQ (fun X1 X2 => c • k.Q X1 X2)).Regular where
  shift_A := hk.shift_A
  A_zero := hk.A_zero
  A_add := hk.A_add
  Q_eq s hs := by
    have e := hk.Q_eq s hs
    show c • k.Qt 0 s = c • k.Pinf - k.At 0 s * (c • k.Pinf) * (k.At 0 s)ᵀ
    rw [smul_conj, ← smul_sub, e]
  Q_psd s hs := SSM.psd_smul (hk.Q_psd s hs) hc.le
  P_psd := SSM.psd_smul hk.P_psd hc.le
  H_const X := by
    show defaultObsModel name k.obsMatrix X none = defaultObsModel name k.obsMatrix _ none
    rw [defaultObs_none, defaultObs_none, hG.H_const X]
  P_pd := pos_smul_pd hk.P_pd hc
  A_unit := hk.A_unit

/-- every built-in kernel is one of the shipped expressions -/
theorem BuiltIn.combos {k : SSM} (h : BuiltIn k) : Combos (Leaf SHO.Any) k := by
  induction h with
  | exp hs _ => exact .leaf (.exp hs)
  | matern32 hs _ => exact .leaf (.matern32 hs)
  | matern52 hs _ => exact .leaf (.matern52 hs)
  | matern hd hs _ => exact .leaf (.matern hd hs)
  | cosine hs _ => exact .leaf (.cosine hs)
  | expSineSquared hp hg _ => exact .leaf (.expSineSquared hp hg)
  | sho hw hq _ _ => exact .leaf (.sho hw hq trivial)
  | sum _ _ h1 h2 => exact .sum h1 h2
  | prod _ _ h1 h2 => exact .prod h1 h2

/-- **C28, disagreement.** For every built-in kernel, every scalar `c > 0` other than `1`, and every two times over which
the kernel has process noise in the observed direction, the likelihood computed with the scaled kernel is not the
Gaussian log density of the scaled kernel's covariance matrix. -/
theorem C28_scale_likelihood_wrong (k : SSM) (hk : BuiltIn k) (name : String) (c : ℝ) (hc : 0 < c) (hc1 : c ≠ 1)
    (t0 t1 : ℝ) (ht : t0 ≤ t1) (hQ : (k.obsMatrix (.time 0) * k.Q (.time 0) (.time (t1 - t0)) * (k.obsMatrix (.time 0))ᵀ) 0 0 ≠ 0) :
    (k.scale name c).logProbability ((twoTimes t0 t1).map Coord.sortable) zeroData unitNoise ≠
      ((Spec.gaussLogDensity (dataGram (k.scale name c) (twoTimes t0 t1) unitNoise) (fun i => zeroData.get i) : ℝ) : EReal) := by
  obtain ⟨G, hG⟩ := hk.combos.covModel
  have hz : k.Qt 0 0 = 0 := C22_noise_zero k hk.combos _ _ rfl
  have hH : (k.scale name c).Ht t1 = k.obsMatrix (.time 0) := by
    show defaultObsModel name k.obsMatrix _ none = _
    rw [defaultObs_none, hG.H_const]
  refine SSM.likelihood_wrong_of_withQ _ t0 t1 (fun X1 X2 => c • k.Q X1 X2) ?_ (hk.regular.scaleQ hG name hc) ht ?_
  · show k.Qt 0 0 = c • k.Qt 0 0
    rw [hz, smul_zero]
  · rw [hH]
    show (k.obsMatrix (.time 0) * k.Q (.time 0) (.time (t1 - t0)) * (k.obsMatrix (.time 0))ᵀ) 0 0 ≠
      (k.obsMatrix (.time 0) * (c • k.Q (.time 0) (.time (t1 - t0))) * (k.obsMatrix (.time 0))ᵀ) 0 0
    rw [Matrix.mul_smul, Matrix.smul_mul, Matrix.smul_apply, smul_eq_mul]
    intro h
    apply hQ
    have : (c - 1) * (k.obsMatrix (.time 0) * k.Q (.time 0) (.time (t1 - t0)) * (k.obsMatrix (.time 0))ᵀ) 0 0 = 0 := by
      linarith
    exact (mul_eq_zero.1 this).resolve_left (sub_ne_zero.2 hc1)

/-- `2.0 * Exp(scale=1)` at times `0` and `1`: the stated hypotheses hold. -/
example (name : String) : ((expKernel 1 1).scale name 2).logProbability ((twoTimes 0 1).map Coord.sortable) zeroData unitNoise ≠
      ((Spec.gaussLogDensity (dataGram ((expKernel 1 1).scale name 2) (twoTimes 0 1) unitNoise)
        (fun i => zeroData.get i) : ℝ) : EReal) := by
  refine C28_scale_likelihood_wrong _ (.exp one_pos one_ne_zero) name 2 (by norm_num) (by norm_num) 0 1 zero_le_one ?_
  show ((!![1] : Matrix (Fin 1) (Fin 1) ℝ) * Exp.Q 1 1 ((1 - 0) - 0) * (!![1] : Matrix (Fin 1) (Fin 1) ℝ)ᵀ) 0 0 ≠ 0
  unfold Exp.Q
  simp only [tr1, mul1]
  show 1 * (1 ^ 2 * (1 - Real.exp (-2 * (1 - 0 - 0) * (1 / 1)))) * 1 ≠ 0
  have : Real.exp (-2 * (1 - 0 - 0) * (1 / 1)) < 1 := by rw [Real.exp_lt_one_iff]; norm_num
  intro h
  nlinarith

/-- **C01/C22, disagreement.** For every underdamped `SHO` of small amplitude, the likelihood of two data points half an
oscillation apart is not the Gaussian log density of the kernel's covariance matrix. -/
theorem C01_sho_truncated_likelihood_wrong (w q sigma : ℝ) (name : String) (hw : 0 < w) (hq : 1 / 2 < q)
    (hc : ¬ SHO.isCritical q) (hσ : sigma ≠ 0) (h1 : sigma ^ 2 < 1e-14) (h2 : sigma ^ 2 * w ^ 2 < 1e-14) :
    (sho w q sigma name).logProbability ((twoTimes 0 (Real.pi / (SHO.eta q * w))).map Coord.sortable) zeroData unitNoise ≠
      ((Spec.gaussLogDensity (dataGram (sho w q sigma name) (twoTimes 0 (Real.pi / (SHO.eta q * w))) unitNoise)
        (fun i => zeroData.get i) : ℝ) : EReal) := by
  have hq0 : 0 < q := by linarith
  have hn := SHO.eta_pos_under hq
  have ht : (0 : ℝ) < Real.pi / (SHO.eta q * w) := by have := Real.pi_pos; positivity
  have hz := (C22_sho_truncated w q sigma name hw hq hc hσ h1 h2).1
  refine SSM.likelihood_wrong_of_withQ _ 0 _ (defaultProcessNoise (SHO.Pinf w sigma) (fun X1 X2 => SHO.A w q (dtOf X1 X2))) ?_
    (SHO.shoExact_regular name hw hq0 (Or.inr hc) hσ) ht.le ?_
  · show (sho w q sigma name).Q (.time 0) (.time 0) = _
    rw [hz _ _ le_rfl]
    have e : (0 : Matrix (Fin 2) (Fin 2) ℝ) = SHO.Pinf w sigma - SHO.A w q (0 - 0) * SHO.Pinf w sigma * (SHO.A w q (0 - 0))ᵀ := by
      rw [SHO.A_expm hw.ne' hq0 (Or.inr hc), sub_self, expm_zero, transpose_one, Matrix.one_mul, Matrix.mul_one, sub_self]
    exact e
  · have e : (sho w q sigma name).Qt 0 (Real.pi / (SHO.eta q * w) - 0) = 0 := hz _ _ (by simpa [Coord.sortable] using ht.le)
    have h5 : q > 0.5 := by norm_num; linarith
    have e2 : defaultProcessNoise (SHO.Pinf w sigma) (fun X1 X2 => SHO.A w q (dtOf X1 X2)) (.time 0)
        (.time (Real.pi / (SHO.eta q * w) - 0)) = SHO.QunderExact w q sigma (Real.pi / (SHO.eta q * w)) := by
      have e : SHO.Pinf w sigma - SHO.A w q (Real.pi / (SHO.eta q * w) - 0 - 0) * SHO.Pinf w sigma *
          (SHO.A w q (Real.pi / (SHO.eta q * w) - 0 - 0))ᵀ = SHO.QunderExact w q sigma (Real.pi / (SHO.eta q * w)) := by
        unfold SHO.A
        rw [if_neg hc, if_pos h5, SHO.Qunder_eq sigma hw.ne' hq, sub_zero, sub_zero]
      exact e
    have eH : (sho w q sigma name).Ht (Real.pi / (SHO.eta q * w)) = (!![1, 0] : Matrix (Fin 1) (Fin 2) ℝ) :=
      defaultObs_none name (fun _ => (!![1, 0] : Matrix (Fin 1) (Fin 2) ℝ)) (.time (Real.pi / (SHO.eta q * w)))
    have e3 : ((!![1, 0] : Matrix (Fin 1) (Fin 2) ℝ) * SHO.QunderExact w q sigma (Real.pi / (SHO.eta q * w)) *
        (!![1, 0] : Matrix (Fin 1) (Fin 2) ℝ)ᵀ) 0 0 = SHO.QunderExact w q sigma (Real.pi / (SHO.eta q * w)) 0 0 := by
      generalize SHO.QunderExact w q sigma (Real.pi / (SHO.eta q * w)) = M
      rw [Matrix.mul_apply, Fin.sum_univ_two, Matrix.mul_apply, Fin.sum_univ_two, Matrix.mul_apply, Fin.sum_univ_two]
      simp
    have e4 : SHO.QunderExact w q sigma (Real.pi / (SHO.eta q * w)) 0 0 =
        sigma ^ 2 * (1 - Real.exp (-(w * (Real.pi / (SHO.eta q * w)) / q))) := by
      have hx : SHO.eta q * w * (Real.pi / (SHO.eta q * w)) = Real.pi := by field_simp
      unfold SHO.QunderExact
      simp only [hx, smul2, Real.sin_pi, Real.sin_two_pi]
      show sigma ^ 2 * _ = _
      ring
    have e5 : Real.exp (-(w * (Real.pi / (SHO.eta q * w)) / q)) < 1 := by
      rw [Real.exp_lt_one_iff]
      have : 0 < w * (Real.pi / (SHO.eta q * w)) / q := by positivity
      linarith
    have e6 : 0 < sigma ^ 2 := by positivity
    have key : ∀ (H : Matrix (Fin 1) (Fin 2) ℝ) (M M' : Matrix (Fin 2) (Fin 2) ℝ), H = !![1, 0] → M = 0 →
        M' = SHO.QunderExact w q sigma (Real.pi / (SHO.eta q * w)) → (H * M * Hᵀ) 0 0 ≠ (H * M' * Hᵀ) 0 0 := ?_
    · exact key _ _ _ eH e e2
    rintro H M M' rfl rfl rfl h
    have h' : (0 : ℝ) = SHO.QunderExact w q sigma (Real.pi / (SHO.eta q * w)) 0 0 := by
      rw [← e3]
      refine Eq.trans ?_ h
      simp
    rw [e4] at h'
    have : 0 < sigma ^ 2 * (1 - Real.exp (-(w * (Real.pi / (SHO.eta q * w)) / q))) := mul_pos e6 (by linarith)
    linarith

example := C01_sho_truncated_likelihood_wrong 1 1 1e-8 "SHO" one_pos (by norm_num)
  (by unfold SHO.isCritical; norm_num [abs_of_pos]) (by norm_num) (by norm_num) (by norm_num)

end Verif
