import Verif.Spec.Exposure
import Verif.Lemmas.PosDef
import Mathlib.MeasureTheory.Integral.DominatedConvergence
import Mathlib.MeasureTheory.Integral.Prod
import Mathlib.MeasureTheory.Integral.IntervalIntegral.FundThmCalculus

/-!
# Positive semidefinite covariance functions and exposure averages
-/

namespace Verif
open Matrix

/-- lower Riemann sums -/
theorem lower_sum_le {φ : ℝ → ℝ} (hφ : Continuous φ) {n : ℕ} (hn : 0 < n) (c : ℕ → ℝ)
    (h : ∀ p < n, ∀ u, (p : ℝ) / n ≤ u → u ≤ ((p + 1 : ℕ) : ℝ) / n → c p ≤ φ u) :
    (1 / (n : ℝ)) * ∑ p ∈ Finset.range n, c p ≤ ∫ u in (0 : ℝ)..1, φ u := by
  have hn' : (0 : ℝ) < n := by exact_mod_cast hn
  have e := intervalIntegral.sum_integral_adjacent_intervals (μ := MeasureTheory.volume) (f := φ) (a := fun p : ℕ => (p : ℝ) / n) (n := n)
    (fun k _ => hφ.intervalIntegrable _ _)
  simp only [Nat.cast_zero, zero_div, div_self hn'.ne'] at e
  rw [← e, Finset.mul_sum]
  refine Finset.sum_le_sum fun p hp => ?_
  have hle : (p : ℝ) / n ≤ ((p + 1 : ℕ) : ℝ) / n := by
    gcongr
    exact Nat.le_succ p
  have hc : (1 / (n : ℝ)) * c p = ∫ _u in ((p : ℝ) / n)..(((p + 1 : ℕ) : ℝ) / n), c p := by
    rw [intervalIntegral.integral_const, smul_eq_mul]
    push_cast
    field_simp
    ring
  rw [hc]
  exact intervalIntegral.integral_mono_on hle (by simp) (hφ.intervalIntegrable _ _)
    fun u hu => h p (Finset.mem_range.1 hp) u hu.1 hu.2

/-- the double integral of a continuous positive semidefinite kernel is non-negative -/
theorem double_integral_nonneg {G : ℝ → ℝ → ℝ} (hG : Continuous fun z : ℝ × ℝ => G z.1 z.2)
    (h : ∀ n (p : ℕ → ℝ), 0 ≤ ∑ i ∈ Finset.range n, ∑ j ∈ Finset.range n, G (p i) (p j)) :
    0 ≤ ∫ u in (0 : ℝ)..1, ∫ v in (0 : ℝ)..1, G u v := by
  have hin : Continuous fun u => ∫ v in (0 : ℝ)..1, G u v :=
    intervalIntegral.continuous_parametric_intervalIntegral_of_continuous' hG 0 1
  refine le_of_forall_pos_lt_add fun ε hε => ?_
  have hK : IsCompact (Set.Icc (0 : ℝ) 1 ×ˢ Set.Icc (0 : ℝ) 1) := isCompact_Icc.prod isCompact_Icc
  have hu := hK.uniformContinuousOn_of_continuous hG.continuousOn
  rw [Metric.uniformContinuousOn_iff] at hu
  obtain ⟨δ, hδ, hu⟩ := hu (ε / 2) (by linarith)
  obtain ⟨n, hn⟩ := exists_nat_gt (1 / δ)
  have hn0 : (0 : ℝ) < n := lt_trans (by positivity) hn
  have hn0' : 0 < n := by exact_mod_cast hn0
  have hnδ : 1 / (n : ℝ) < δ := by
    rw [div_lt_iff₀ hn0]; rw [div_lt_iff₀ hδ] at hn; linarith
  have cell : ∀ p < n, ∀ u, (p : ℝ) / n ≤ u → u ≤ ((p + 1 : ℕ) : ℝ) / n → u ∈ Set.Icc (0 : ℝ) 1 ∧ dist u ((p : ℝ) / n) < δ := by
    intro p hp u h1 h2
    have hp1 : ((p + 1 : ℕ) : ℝ) / n ≤ 1 := by
      rw [div_le_one hn0]; exact_mod_cast hp
    refine ⟨⟨le_trans (by positivity) h1, h2.trans hp1⟩, ?_⟩
    rw [Real.dist_eq, abs_of_nonneg (by linarith)]
    push_cast at h2
    rw [add_div] at h2
    linarith
  have base : ∀ p < n, ((p : ℝ) / n) ∈ Set.Icc (0 : ℝ) 1 := fun p hp =>
    (cell p hp _ le_rfl (by gcongr; exact Nat.le_succ p)).1
  have h1 := lower_sum_le hin hn0' (fun p => (1 / (n : ℝ)) * ∑ q ∈ Finset.range n, (G (p / n) (q / n) - ε / 2)) (by
    intro p hp u hu1 hu2
    refine lower_sum_le (hG.comp (by fun_prop : Continuous fun v : ℝ => (u, v))) hn0' (fun q => G (p / n) (q / n) - ε / 2) ?_
    intro q hq v hv1 hv2
    obtain ⟨hu3, hu4⟩ := cell p hp u hu1 hu2
    obtain ⟨hv3, hv4⟩ := cell q hq v hv1 hv2
    have := hu (u, v) ⟨hu3, hv3⟩ ((p : ℝ) / n, (q : ℝ) / n) ⟨base p hp, base q hq⟩ (by
      rw [Prod.dist_eq]; exact max_lt hu4 hv4)
    rw [Real.dist_eq] at this
    have := (abs_lt.1 this).1
    show G (p / n) (q / n) - ε / 2 ≤ G u v
    simp only at this
    linarith)
  have h2 := h n (fun i => (i : ℝ) / n)
  have e : (1 / (n : ℝ)) * ∑ p ∈ Finset.range n, (1 / (n : ℝ)) * ∑ q ∈ Finset.range n, (G (p / n) (q / n) - ε / 2) =
      (1 / (n : ℝ)) ^ 2 * (∑ i ∈ Finset.range n, ∑ j ∈ Finset.range n, G (i / n) (j / n)) - ε / 2 := by
    simp only [Finset.sum_sub_distrib, Finset.sum_const, Finset.card_range, nsmul_eq_mul, ← Finset.mul_sum]
    field_simp
  rw [e] at h1
  have h3 : 0 ≤ (1 / (n : ℝ)) ^ 2 * (∑ i ∈ Finset.range n, ∑ j ∈ Finset.range n, G (i / n) (j / n)) := mul_nonneg (sq_nonneg _) h2
  linarith

/-- point of the exposure of `X` at the fraction `u` of its length -/
noncomputable def Coord.at (X : Coord) (u : ℝ) : ℝ := X.sortable + max X.delta 0 * (u - 1 / 2)

theorem Coord.at_continuous (X : Coord) : Continuous X.at := by unfold Coord.at; fun_prop

theorem Coord.average_unit (X : Coord) (f : ℝ → ℝ) : X.average f = ∫ u in (0 : ℝ)..1, f (X.at u) := by
  unfold Coord.average Coord.at
  split_ifs with h
  · rw [max_eq_left h.le]
    have e := intervalIntegral.smul_integral_comp_add_mul (a := 0) (b := 1) f X.delta (X.sortable - X.delta / 2)
    rw [smul_eq_mul, show X.sortable - X.delta / 2 + X.delta * 0 = X.sortable - X.delta / 2 by ring,
      show X.sortable - X.delta / 2 + X.delta * 1 = X.sortable + X.delta / 2 by ring] at e
    have e2 : ∀ u : ℝ, X.sortable + X.delta * (u - 1 / 2) = X.sortable - X.delta / 2 + X.delta * u := fun u => by ring
    simp only [e2]
    rw [← e, ← mul_assoc, one_div, inv_mul_cancel₀ h.ne', one_mul]
  · rw [max_eq_right (not_lt.1 h)]
    simp

/-- `κ |u - v|` is a positive semidefinite kernel -/
def PosSemidefFn (κ : ℝ → ℝ) : Prop := ∀ (N : ℕ) (s : Fin N → ℝ), (Matrix.of fun i j => κ |s i - s j|).PosSemidef

theorem PosSemidefFn.quad {κ : ℝ → ℝ} (h : PosSemidefFn κ) {ι : Type*} [Fintype ι] (s a : ι → ℝ) :
    0 ≤ ∑ i, ∑ j, a i * a j * κ |s i - s j| := by
  have e := Fintype.equivFin ι
  have := ((psd_iff _).1 (h _ (s ∘ e.symm))).2 (a ∘ e.symm)
  simp only [dotProduct, mulVec, Matrix.of_apply, Function.comp] at this
  rw [← e.symm.sum_comp]
  refine this.trans_eq (Finset.sum_congr rfl fun i _ => ?_)
  rw [← e.symm.sum_comp, Finset.mul_sum]
  exact Finset.sum_congr rfl fun j _ => by ring

theorem exposureCov_unit (κ : ℝ → ℝ) (X Y : Coord) :
    exposureCov κ X Y = ∫ u in (0 : ℝ)..1, ∫ v in (0 : ℝ)..1, κ |X.at u - Y.at v| := by
  unfold exposureCov
  rw [Coord.average_unit]
  congr 1
  funext u
  rw [Coord.average_unit]

theorem integral_sum2 {ι : Type*} [Fintype ι] (a : ι → ι → ℝ) {f : ι → ι → ℝ → ℝ} (hf : ∀ i j, Continuous (f i j)) :
    (∫ u in (0 : ℝ)..1, ∑ i, ∑ j, a i j * f i j u) = ∑ i, ∑ j, a i j * ∫ u in (0 : ℝ)..1, f i j u := by
  have h2 : ∀ i j, Continuous fun u => a i j * f i j u := fun i j => continuous_const.mul (hf i j)
  have h1 : ∀ i, Continuous fun u => ∑ j, a i j * f i j u := fun i => continuous_finsetSum _ fun j _ => h2 i j
  rw [intervalIntegral.integral_finsetSum (s := Finset.univ) (f := fun i u => ∑ j, a i j * f i j u) fun i _ => (h1 i).intervalIntegrable _ _]
  refine Finset.sum_congr rfl fun i _ => ?_
  rw [intervalIntegral.integral_finsetSum (s := Finset.univ) (f := fun j u => a i j * f i j u) fun j _ => (h2 i j).intervalIntegrable _ _]
  exact Finset.sum_congr rfl fun j _ => intervalIntegral.integral_const_mul _ _

/-- covariances of exposure averages form positive semidefinite matrices, however the exposures overlap -/
theorem exposureCov_quad {κ : ℝ → ℝ} (hc : Continuous fun u => κ |u|) (h : PosSemidefFn κ) {ι : Type*} [Fintype ι] (X : ι → Coord)
    (a : ι → ℝ) : 0 ≤ ∑ i, ∑ j, a i * a j * exposureCov κ (X i) (X j) := by
  have hterm : ∀ i j, Continuous fun z : ℝ × ℝ => κ |(X i).at z.1 - (X j).at z.2| := fun i j =>
    hc.comp (((X i).at_continuous.comp continuous_fst).sub ((X j).at_continuous.comp continuous_snd))
  have hG : Continuous fun z : ℝ × ℝ => ∑ i, ∑ j, a i * a j * κ |(X i).at z.1 - (X j).at z.2| :=
    continuous_finsetSum _ fun i _ => continuous_finsetSum _ fun j _ => continuous_const.mul (hterm i j)
  have hpos := double_integral_nonneg (G := fun u v => ∑ i, ∑ j, a i * a j * κ |(X i).at u - (X j).at v|) hG (by
    intro n p
    have := h.quad (ι := Fin n × ι) (fun q => (X q.2).at (p q.1)) (fun q => a q.2)
    rw [Fintype.sum_prod_type] at this
    rw [← Fin.sum_univ_eq_sum_range (fun i => ∑ j ∈ Finset.range n, ∑ i' : ι, ∑ j' : ι, a i' * a j' * κ |(X i').at (p i) - (X j').at (p j)|)]
    refine this.trans_eq (Finset.sum_congr rfl fun i _ => ?_)
    rw [← Fin.sum_univ_eq_sum_range (fun j => ∑ i' : ι, ∑ j' : ι, a i' * a j' * κ |(X i').at (p i) - (X j').at (p j)|) n]
    rw [Finset.sum_comm (s := Finset.univ (α := Fin n)) (t := Finset.univ (α := ι))]
    refine Finset.sum_congr rfl fun i' _ => ?_
    rw [Fintype.sum_prod_type])
  refine hpos.trans_eq ?_
  have hin : ∀ i j, Continuous fun u => ∫ v in (0 : ℝ)..1, κ |(X i).at u - (X j).at v| := fun i j =>
    intervalIntegral.continuous_parametric_intervalIntegral_of_continuous' (hterm i j) 0 1
  have e1 : ∀ u, (∫ v in (0 : ℝ)..1, ∑ i, ∑ j, a i * a j * κ |(X i).at u - (X j).at v|) =
      ∑ i, ∑ j, a i * a j * ∫ v in (0 : ℝ)..1, κ |(X i).at u - (X j).at v| := fun u =>
    integral_sum2 (fun i j => a i * a j) fun i j => (hterm i j).comp (by fun_prop : Continuous fun v : ℝ => (u, v))
  simp only [e1]
  rw [integral_sum2 (fun i j => a i * a j) hin]
  simp only [exposureCov_unit]

theorem exposureCov_comm {κ : ℝ → ℝ} (hc : Continuous fun u => κ |u|) (X Y : Coord) : exposureCov κ X Y = exposureCov κ Y X := by
  rw [exposureCov_unit, exposureCov_unit]
  have hterm : Continuous fun z : ℝ × ℝ => κ |X.at z.1 - Y.at z.2| :=
    hc.comp ((X.at_continuous.comp continuous_fst).sub (Y.at_continuous.comp continuous_snd))
  have e : ∀ v u, κ |Y.at v - X.at u| = κ |X.at u - Y.at v| := fun v u => by rw [abs_sub_comm]
  simp only [e]
  rw [intervalIntegral.integral_of_le zero_le_one, intervalIntegral.integral_of_le zero_le_one]
  simp only [intervalIntegral.integral_of_le zero_le_one]
  refine MeasureTheory.integral_integral_swap (f := fun u v => κ |X.at u - Y.at v|) ?_
  rw [MeasureTheory.Measure.prod_restrict]
  exact (hterm.continuousOn.integrableOn_compact (isCompact_Icc.prod isCompact_Icc)).mono_set
    (Set.prod_mono Set.Ioc_subset_Icc_self Set.Ioc_subset_Icc_self)

/-- covariance matrices of exposure averages -/
theorem exposureGram_psd {κ : ℝ → ℝ} (hc : Continuous fun u => κ |u|) (h : PosSemidefFn κ) {ι : Type*} [Fintype ι] (X : ι → Coord) :
    (Matrix.of fun i j => exposureCov κ (X i) (X j)).PosSemidef := by
  rw [psd_iff]
  refine ⟨by ext i j; exact exposureCov_comm hc _ _, fun a => ?_⟩
  refine (exposureCov_quad hc h X a).trans_eq ?_
  simp only [dotProduct, mulVec, Matrix.of_apply, Finset.mul_sum]
  exact Finset.sum_congr rfl fun i _ => Finset.sum_congr rfl fun j _ => by ring

end Verif
