import Verif.Lemmas.PosDefFn
import Mathlib.Analysis.Calculus.ParametricIntervalIntegral
import Mathlib.MeasureTheory.Integral.DominatedConvergence

/-!
# Differentiating exposure averages under the integral
-/

namespace Verif
open Filter Topology Set

variable {U : Set ℝ}

/-- differentiation under the integral over the unit interval -/
theorem hasDerivAt_unit_integral (hU : IsOpen U) {F F' : ℝ → ℝ → ℝ} (hF : ∀ θ ∈ U, ∀ v, HasDerivAt (fun θ => F θ v) (F' θ v) θ)
    (hc : ∀ θ ∈ U, Continuous (F θ)) (hc' : ContinuousOn (fun p : ℝ × ℝ => F' p.1 p.2) (U ×ˢ univ)) {θ : ℝ} (hθ : θ ∈ U) :
    HasDerivAt (fun θ => ∫ v in (0 : ℝ)..1, F θ v) (∫ v in (0 : ℝ)..1, F' θ v) θ := by
  obtain ⟨ε, hε, hball⟩ := Metric.isOpen_iff.1 hU θ hθ
  have hsub : Metric.closedBall θ (ε / 2) ⊆ U := (Metric.closedBall_subset_ball (half_lt_self hε)).trans hball
  have hK : IsCompact (Metric.closedBall θ (ε / 2) ×ˢ Icc (0 : ℝ) 1) := (isCompact_closedBall _ _).prod isCompact_Icc
  obtain ⟨C, hC⟩ := hK.exists_bound_of_continuousOn (hc'.mono (prod_mono hsub (subset_univ _)))
  refine (intervalIntegral.hasDerivAt_integral_of_dominated_loc_of_deriv_le (F' := F') (bound := fun _ => C)
    (Metric.closedBall_mem_nhds θ (half_pos hε)) ?_ ((hc θ hθ).intervalIntegrable _ _) ?_ ?_ (continuous_const.intervalIntegrable _ _) ?_).2
  · filter_upwards [hU.mem_nhds hθ] with x hx
    exact (hc x hx).aestronglyMeasurable
  · have : Continuous (F' θ) := by
      rw [← continuousOn_univ]
      exact hc'.comp (f := fun v : ℝ => (θ, v)) (Continuous.continuousOn (by fun_prop)) fun v _ => ⟨hθ, mem_univ _⟩
    exact this.aestronglyMeasurable
  · refine Eventually.of_forall fun v hv x hx => hC (x, v) ⟨hx, ?_⟩
    rw [uIoc_of_le zero_le_one] at hv
    exact ⟨hv.1.le, hv.2⟩
  · exact Eventually.of_forall fun v _ x hx => hF x (hsub hx) v

/-- differentiation under the two integrals of the covariance of two exposures -/
theorem exposureCov_deriv (hU : IsOpen U) {κ κ' : ℝ → ℝ → ℝ} (hκ : ∀ θ ∈ U, ∀ r, 0 ≤ r → HasDerivAt (fun θ => κ θ r) (κ' θ r) θ)
    (hc : ∀ θ ∈ U, Continuous fun x => κ θ |x|) (hc' : ContinuousOn (fun p : ℝ × ℝ => κ' p.1 |p.2|) (U ×ˢ univ)) {θ : ℝ} (hθ : θ ∈ U)
    (X Y : Coord) : HasDerivAt (fun θ => exposureCov (κ θ) X Y) (exposureCov (κ' θ) X Y) θ := by
  simp only [exposureCov_unit]
  have hX := X.at_continuous
  have hY := Y.at_continuous
  have hs : Continuous fun p : (U × ℝ) × ℝ => κ' p.1.1 |X.at p.1.2 - Y.at p.2| :=
    hc'.comp_continuous (f := fun p : (U × ℝ) × ℝ => ((p.1.1 : ℝ), X.at p.1.2 - Y.at p.2)) (by fun_prop) fun p => ⟨p.1.1.2, mem_univ _⟩
  have hs' : Continuous fun p : U × ℝ => ∫ v in (0 : ℝ)..1, κ' p.1 |X.at p.2 - Y.at v| :=
    intervalIntegral.continuous_parametric_intervalIntegral_of_continuous' (f := fun p : U × ℝ => fun v => κ' p.1 |X.at p.2 - Y.at v|) hs 0 1
  refine hasDerivAt_unit_integral hU (F := fun θ u => ∫ v in (0 : ℝ)..1, κ θ |X.at u - Y.at v|)
    (F' := fun θ u => ∫ v in (0 : ℝ)..1, κ' θ |X.at u - Y.at v|) (fun x hx u => ?_) (fun x hx => ?_) ?_ hθ
  · refine hasDerivAt_unit_integral hU (F := fun θ v => κ θ |X.at u - Y.at v|) (F' := fun θ v => κ' θ |X.at u - Y.at v|)
      (fun z hz v => hκ z hz _ (abs_nonneg _)) (fun z hz => ?_) ?_ hx
    · exact (hc z hz).comp (f := fun v => X.at u - Y.at v) (by fun_prop)
    · exact hc'.comp (f := fun p : ℝ × ℝ => (p.1, X.at u - Y.at p.2)) (Continuous.continuousOn (by fun_prop)) fun p hp => ⟨hp.1, mem_univ _⟩
  · refine intervalIntegral.continuous_parametric_intervalIntegral_of_continuous' (f := fun u v => κ x |X.at u - Y.at v|) ?_ 0 1
    exact (hc x hx).comp (f := fun p : ℝ × ℝ => X.at p.1 - Y.at p.2) (by fun_prop)
  · rw [continuousOn_iff_continuous_domRestrict]
    have e : (U ×ˢ (univ : Set ℝ)).domRestrict (fun p : ℝ × ℝ => ∫ v in (0 : ℝ)..1, κ' p.1 |X.at p.2 - Y.at v|) =
        (fun p : U × ℝ => ∫ v in (0 : ℝ)..1, κ' p.1 |X.at p.2 - Y.at v|) ∘ fun p : ↥(U ×ˢ (univ : Set ℝ)) => (⟨p.1.1, p.2.1⟩, p.1.2) := rfl
    rw [e]
    exact hs'.comp (by fun_prop)

end Verif
