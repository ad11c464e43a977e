import Verif.Props.C18_Causality
import Verif.Props.C28_Likelihood

/-!
# C01 - C03 for every kernel expression, over data whose time steps have the right process noise

The filter reads the process noise only over the gaps between consecutive data. If it is right over these gaps, the likelihood
and the conditioned means and variances are exact, whatever the kernel does over other gaps. This covers the underdamped
`SHO` (alone or inside sums and products), whose noise entries below `1e-14` are set to zero.
-/

namespace Verif
open Matrix

/-- the process noise over a time step `s` keeps the stationary covariance stationary -/
def SSM.NoiseExactOver (k : SSM) (s : ℝ) : Prop := k.Qt 0 s = k.Pinf - k.At 0 s * k.Pinf * (k.At 0 s)ᵀ

/-- the same kernel with the process noise it should have -/
noncomputable def SSM.ideal (k : SSM) : SSM := k.withQ fun X1 X2 => k.Pinf - k.A X1 X2 * k.Pinf * (k.A X1 X2)ᵀ

theorem SSM.CovModel.ideal_proper {k : SSM} {G : Matrix k.n k.n ℝ} (h : k.CovModel G) : k.ideal.Proper where
  shift_A X1 X2 := by
    show k.A X1 X2 = k.A (.time 0) (.time _)
    rw [h.A_exp, h.A_exp]
    simp [Coord.sortable]
  A_zero := by
    show k.A (.time 0) (.time 0) = 1
    rw [h.A_exp]
    simp [Coord.sortable, NormedSpace.exp_zero]
  A_add s t _ _ := by
    show k.A (.time 0) (.time (s + t)) = k.A (.time 0) (.time t) * k.A (.time 0) (.time s)
    rw [h.A_exp, h.A_exp, h.A_exp]
    simp only [Coord.sortable, sub_zero]
    rw [add_comm, add_smul]
    exact Matrix.exp_add_of_commute _ _ ((Commute.refl G).smul_left _ |>.smul_right _)
  Q_eq _ _ := rfl
  Q_psd s hs := by
    have := h.incr_psd s hs
    show (k.Pinf - k.A (.time 0) (.time s) * k.Pinf * (k.A (.time 0) (.time s))ᵀ).PosSemidef
    rw [h.A_exp]
    simpa [Coord.sortable] using this
  P_psd := h.P_psd
  H_const X := by
    show k.obsModel X none = k.obsModel (.time 0) none
    rw [h.H_none, h.H_none, h.H_const X]

theorem SSM.CovModel.ideal_regular {k : SSM} {G : Matrix k.n k.n ℝ} (h : k.CovModel G) (hP : k.Pinf.PosDef) : k.ideal.Regular where
  toProper := h.ideal_proper
  P_pd := hP
  A_unit s _ := by
    show IsUnit (k.A (.time 0) (.time s)).det
    rw [h.A_exp]
    exact (Matrix.isUnit_iff_isUnit_det _).1 (Matrix.isUnit_exp _)

section
variable {k : SSM} (hk : Combos (Leaf SHO.Any) k) {X : Arr Coord} (y R : Arr ℝ)
  (hg : ∀ i, i + 1 < X.len → k.NoiseExactOver ((X.get (i + 1)).sortable - (X.get i).sortable))
include hk hg

theorem ideal_kalman {j : ℕ} (hj : j < X.len) : (k.kalman (X.map Coord.sortable) y R).get j =
    (k.ideal.kalman (X.map Coord.sortable) y R).get j := by
  refine kf_congr (A := k.At) (A' := k.ideal.At) (Q := k.Qt) (Q' := k.ideal.Qt) (H := k.Ht) (H' := k.ideal.Ht) rfl ?_
    (fun _ _ => rfl) (fun i hi => ?_) (fun _ _ => rfl) (fun _ _ => rfl) (fun _ _ => rfl)
  · have h1 : k.Qt 0 0 = 0 := C22_noise_zero k hk _ _ rfl
    obtain ⟨G, hG⟩ := hk.covModel
    have h2 : k.At 0 0 = 1 := hG.ideal_proper.A_zero
    have h3 : k.ideal.Qt 0 0 = k.Pinf - k.At 0 0 * k.Pinf * (k.At 0 0)ᵀ := rfl
    rw [h1, h3, h2]
    simp
  · exact hg i (by omega)

theorem ideal_smooth {j : ℕ} (hj : j < X.len) : (k.condition (X.map Coord.sortable) y R).2.get j =
    (k.ideal.condition (X.map Coord.sortable) y R).2.get j := by
  have hkf : ∀ i < X.len, (k.kalman (X.map Coord.sortable) y R).get i = (k.ideal.kalman (X.map Coord.sortable) y R).get i :=
    fun i hi => ideal_kalman hk y R hg hi
  have l1 := kalman_len k (X.map Coord.sortable) y R
  have l2 := kalman_len k.ideal (X.map Coord.sortable) y R
  show (rtsSmoother k.At (X.map Coord.sortable) (k.kalman (X.map Coord.sortable) y R)).get j =
    (rtsSmoother k.ideal.At (X.map Coord.sortable) (k.ideal.kalman (X.map Coord.sortable) y R)).get j
  generalize k.kalman (X.map Coord.sortable) y R = kf1 at hkf l1 ⊢
  generalize k.ideal.kalman (X.map Coord.sortable) y R = kf2 at hkf l2 ⊢
  exact rts_congr (A := k.At) (A' := k.ideal.At) rfl l1 l2 hkf (fun _ _ => rfl) hj

/-- **C01, for every kernel expression.** Sums, products and scalings of all exported instantaneous kernels, any amplitude: if the
process noise is the stationary one over every gap between consecutive data, the likelihood is exact. -/
theorem C01_likelihood_exact_over_gaps (hX : Sorted (X.map Coord.sortable)) (hR : ∀ i < X.len, 0 < R.get i) :
    k.logProbability (X.map Coord.sortable) y R =
      ((Spec.gaussLogDensity (dataGram k X R) (fun i => y.get i) : ℝ) : EReal) := by
  obtain ⟨G, hG⟩ := hk.covModel
  have hp := hG.ideal_proper
  have e : k.logProbability (X.map Coord.sortable) y R = k.ideal.logProbability (X.map Coord.sortable) y R := by
    rw [logProbability_def, logProbability_def]
    have hkf : ∀ i < X.len, (k.kalman (X.map Coord.sortable) y R).get i = (k.ideal.kalman (X.map Coord.sortable) y R).get i :=
      fun i hi => ideal_kalman hk y R hg hi
    have l1 := kalman_len k (X.map Coord.sortable) y R
    have l2 := kalman_len k.ideal (X.map Coord.sortable) y R
    generalize k.kalman (X.map Coord.sortable) y R = kf1 at hkf l1 ⊢
    generalize k.ideal.kalman (X.map Coord.sortable) y R = kf2 at hkf l2 ⊢
    have l3 : kf1.len = X.len := l1
    exact computeLogProb_congr (l1.trans l2.symm) (fun i hi => congrArg FilterOut.v (hkf i (l3 ▸ hi)))
      (fun i hi => congrArg FilterOut.S (hkf i (l3 ▸ hi)))
  rw [e]
  refine (C01_likelihood_exact k.ideal hp X y R hX fun i hi => ?_).trans rfl
  exact kf_S_pos hX hp.P_psd hp.Q_psd hR hi

/-- **C02, C03, for every kernel expression** with a positive definite stationary covariance. -/
theorem C02_C03_conditioned_exact_over_gaps (hP : k.Pinf.PosDef) (hX : Sorted (X.map Coord.sortable))
    (hR : ∀ i < X.len, 0 < R.get i) (i : ℕ) (hi : i < X.len) :
    ((k.conditionedAtData X y R).get i) =
      (Spec.postMean (dataGram k X R) (fun j => y.get j) (fun j => k.evaluate (X.get i) (X.get j)),
       Spec.postVar (dataGram k X R) (k.evaluate (X.get i) (X.get i)) (fun j => k.evaluate (X.get i) (X.get j))) := by
  obtain ⟨G, hG⟩ := hk.covModel
  have hp := hG.ideal_regular hP
  rw [conditionedAtData_get k X y R hi, ideal_smooth hk y R hg hi]
  have h := Prod.ext (C02_conditioned_mean_exact k.ideal hp X y R hX hR i hi) (C03_conditioned_variance_exact k.ideal hp X y R hX hR i hi)
    (x := (k.ideal.conditionedAtData X y R).get i)
    (y := (Spec.postMean (dataGram k.ideal X R) (fun j => y.get j) (fun j => k.ideal.evaluate (X.get i) (X.get j)),
       Spec.postVar (dataGram k.ideal X R) (k.ideal.evaluate (X.get i) (X.get i)) (fun j => k.ideal.evaluate (X.get i) (X.get j))))
  rw [conditionedAtData_get k.ideal X y R hi] at h
  exact h

end

/-! ## The underdamped oscillator -/

theorem SHO.truncate_eq {M : Matrix (Fin 2) (Fin 2) ℝ} (h : ∀ i j, M i j = 0 ∨ 1e-14 ≤ |M i j|) : truncate M = M := by
  ext i j
  unfold truncate
  rw [Matrix.of_apply]
  rcases h i j with h | h
  · rw [h]; simp
  · rw [if_neg (not_lt.2 h)]

/-- over a gap in which no non-zero entry of the exact noise is below the truncation constant, the noise is exact -/
theorem C22_sho_untruncated {w q sigma : ℝ} (name : String) (hw : 0 < w) (hq : 1 / 2 < q) (hc : ¬ SHO.isCritical q) {s : ℝ}
    (h : ∀ i j, (SHO.QunderExact w q sigma s) i j = 0 ∨ 1e-14 ≤ |(SHO.QunderExact w q sigma s) i j|) :
    (sho w q sigma name).NoiseExactOver s := by
  have h5 : q > 0.5 := by norm_num; linarith
  have e : SHO.Q w q sigma (s - 0) = SHO.Pinf w sigma - SHO.A w q (s - 0) * SHO.Pinf w sigma * (SHO.A w q (s - 0))ᵀ := by
    unfold SHO.Q SHO.A
    rw [if_neg hc, if_neg hc, if_pos h5, if_pos h5, ← SHO.Qunder_eq sigma hw.ne' hq, sub_zero]
    exact SHO.truncate_eq h
  exact e

theorem SHO.sho_Pinf_pd {w sigma : ℝ} (name : String) (q : ℝ) (hw : 0 < w) (hσ : sigma ≠ 0) : (sho w q sigma name).Pinf.PosDef :=
  (SHO.shoExact_regular (w := w) (q := 1 / 2) (sigma := sigma) name hw (by norm_num) (Or.inl rfl) hσ).P_pd

/-- **C01 - C03, underdamped `SHO`.** Exact for data over whose gaps no non-zero entry of the process noise is below the truncation
constant `1e-14`. (Missing: gaps over which an entry is; there the statement is false, `C01_sho_truncated_likelihood_wrong`.) -/
theorem C01_C02_C03_sho_underdamped_partial (w q sigma : ℝ) (name : String) (hw : 0 < w) (hq : 1 / 2 < q) (hc : ¬ SHO.isCritical q)
    (hσ : sigma ≠ 0) (X : Arr Coord) (y R : Arr ℝ) (hX : Sorted (X.map Coord.sortable)) (hR : ∀ i < X.len, 0 < R.get i)
    (h : ∀ a, a + 1 < X.len → ∀ i j, (SHO.QunderExact w q sigma ((X.get (a + 1)).sortable - (X.get a).sortable)) i j = 0 ∨
      1e-14 ≤ |(SHO.QunderExact w q sigma ((X.get (a + 1)).sortable - (X.get a).sortable)) i j|) :
    (sho w q sigma name).logProbability (X.map Coord.sortable) y R =
      ((Spec.gaussLogDensity (dataGram (sho w q sigma name) X R) (fun i => y.get i) : ℝ) : EReal) ∧
    ∀ i < X.len, ((sho w q sigma name).conditionedAtData X y R).get i =
      (Spec.postMean (dataGram (sho w q sigma name) X R) (fun j => y.get j) (fun j => (sho w q sigma name).evaluate (X.get i) (X.get j)),
       Spec.postVar (dataGram (sho w q sigma name) X R) ((sho w q sigma name).evaluate (X.get i) (X.get i))
        (fun j => (sho w q sigma name).evaluate (X.get i) (X.get j))) := by
  have hk : Combos (Leaf SHO.Any) (sho w q sigma name) := .leaf (.sho hw (by linarith) trivial)
  have hg : ∀ a, a + 1 < X.len → (sho w q sigma name).NoiseExactOver ((X.get (a + 1)).sortable - (X.get a).sortable) :=
    fun a ha => C22_sho_untruncated name hw hq hc (h a ha)
  exact ⟨C01_likelihood_exact_over_gaps hk y R hg hX hR,
    fun i hi => C02_C03_conditioned_exact_over_gaps hk y R hg (SHO.sho_Pinf_pd name q hw hσ) hX hR i hi⟩

section examples

theorem SHO.not_critical_one : ¬ SHO.isCritical 1 := by
  unfold SHO.isCritical
  norm_num [abs_of_pos]

/-- over half an oscillation the noise of `SHO(omega=1, quality=1, sigma=1)` is not truncated -/
theorem SHO.half_oscillation (i j : Fin 2) : SHO.QunderExact 1 1 1 (Real.pi / SHO.eta 1) i j = 0 ∨
    1e-14 ≤ |SHO.QunderExact 1 1 1 (Real.pi / SHO.eta 1) i j| := by
  have hn : 0 < SHO.eta 1 := SHO.eta_pos_under (by norm_num)
  have hx : SHO.eta 1 * 1 * (Real.pi / SHO.eta 1) = Real.pi := by field_simp
  have hn1 : SHO.eta 1 ≤ 1 := by
    unfold SHO.eta
    rw [Real.sqrt_le_one]
    norm_num [abs_of_pos]
  have ha : 1 ≤ Real.pi / SHO.eta 1 := by
    rw [le_div_iff₀ hn]; linarith [Real.two_le_pi]
  have he : Real.exp (-(Real.pi / SHO.eta 1)) ≤ Real.exp (-1) := Real.exp_le_exp.2 (by linarith)
  have he1 : Real.exp (-1) ≤ 1 / 2 := by
    rw [Real.exp_neg, one_div]
    exact inv_anti₀ (by norm_num) (by linarith [Real.add_one_le_exp 1])
  have e : SHO.QunderExact 1 1 1 (Real.pi / SHO.eta 1) =
      !![1 - Real.exp (-(Real.pi / SHO.eta 1)), 0; 0, 1 - Real.exp (-(Real.pi / SHO.eta 1))] := by
    unfold SHO.QunderExact
    simp only [hx, smul2, Real.sin_pi, Real.sin_two_pi]
    refine ext2 ?_ ?_ ?_ ?_ <;> norm_num
  rw [e]
  have hpos : (1e-14 : ℝ) ≤ |1 - Real.exp (-(Real.pi / SHO.eta 1))| := by
    rw [abs_of_pos (by linarith)]; norm_num; linarith
  fin_cases i <;> fin_cases j
  · exact Or.inr hpos
  · exact Or.inl rfl
  · exact Or.inl rfl
  · exact Or.inr hpos

example (y : Arr ℝ) := C01_C02_C03_sho_underdamped_partial 1 1 1 "SHO" one_pos (by norm_num) SHO.not_critical_one one_ne_zero
  (twoTimes 0 (Real.pi / SHO.eta 1)) y unitNoise (twoTimes_sorted (div_nonneg Real.pi_pos.le (Real.sqrt_nonneg _))) unitNoise_pos
  (fun a ha i j => by
    have ha' : a + 1 < 2 := ha
    obtain rfl : a = 0 := by omega
    simpa [twoTimes, Coord.sortable] using SHO.half_oscillation i j)

end examples

end Verif
