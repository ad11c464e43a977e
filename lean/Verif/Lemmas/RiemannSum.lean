import Mathlib.MeasureTheory.Integral.DominatedConvergence
import Mathlib.MeasureTheory.Integral.IntervalIntegral.Basic
import Mathlib.MeasureTheory.Function.Floor

/-!
# Riemann sums
-/

namespace Verif
open MeasureTheory Filter Topology Set

/-- the Riemann sum of `g` over `[0, 1]` with `n` equal steps -/
noncomputable def riemann (n : ℕ) (g : ℝ → ℝ) : ℝ := (1 / (n : ℝ)) * ∑ k ∈ Finset.range n, g (k / n)

theorem riemann_eq {n : ℕ} (hn : 0 < n) (g : ℝ → ℝ) : riemann n g = ∫ u in (0 : ℝ)..1, g (⌊n * u⌋₊ / n) := by
  have hn' : (0 : ℝ) < n := by exact_mod_cast hn
  have hcell : ∀ k : ℕ, ∀ u ∈ Ioo ((k : ℝ) / n) (((k + 1 : ℕ) : ℝ) / n), g (⌊n * u⌋₊ / n) = g (k / n) := by
    intro k u hu
    have h1 : (k : ℝ) ≤ n * u := by have := (div_lt_iff₀ hn').1 hu.1; linarith
    have h2 : n * u < k + 1 := by have := (lt_div_iff₀ hn').1 hu.2; push_cast at this; linarith
    rw [(Nat.floor_eq_iff (h1.trans' (Nat.cast_nonneg k))).2 ⟨h1, h2⟩]
  have hle : ∀ k : ℕ, (k : ℝ) / n ≤ ((k + 1 : ℕ) : ℝ) / n := fun k => by gcongr; exact Nat.le_succ k
  have hae : ∀ k : ℕ, ∀ᵐ u : ℝ, u ∈ uIoc ((k : ℝ) / n) (((k + 1 : ℕ) : ℝ) / n) → g (⌊n * u⌋₊ / n) = g (k / n) := by
    intro k
    have h : ∀ᵐ u : ℝ, u ≠ ((k + 1 : ℕ) : ℝ) / n := by
      rw [ae_iff]; simp
    filter_upwards [h] with u hu hm
    rw [uIoc_of_le (hle k)] at hm
    exact hcell k u ⟨hm.1, lt_of_le_of_ne hm.2 hu⟩
  have hint : ∀ k : ℕ, IntervalIntegrable (fun u : ℝ => g (⌊n * u⌋₊ / n)) volume ((k : ℝ) / n) (((k + 1 : ℕ) : ℝ) / n) := by
    intro k
    refine (intervalIntegrable_const (c := g (k / n))).congr_ae ?_
    rw [EventuallyEq, ae_restrict_iff' measurableSet_uIoc]
    filter_upwards [hae k] with u hu hm using (hu hm).symm
  have e := intervalIntegral.sum_integral_adjacent_intervals (μ := volume) (f := fun u : ℝ => g (⌊n * u⌋₊ / n))
    (a := fun p : ℕ => (p : ℝ) / n) (n := n) fun k _ => hint k
  simp only [Nat.cast_zero, zero_div, div_self hn'.ne'] at e
  rw [← e, riemann, Finset.mul_sum]
  refine Finset.sum_congr rfl fun k _ => ?_
  rw [intervalIntegral.integral_congr_ae (hae k), intervalIntegral.integral_const, smul_eq_mul]
  congr 1
  push_cast
  field_simp
  ring

/-- Riemann sums of functions which converge along convergent arguments -/
theorem riemann_tendsto {g : ℕ → ℝ → ℝ} {G : ℝ → ℝ} {C : ℝ} (hC : ∀ n, ∀ u ∈ Icc (0 : ℝ) 1, |g n u| ≤ C)
    (hg : ∀ u : ℕ → ℝ, ∀ u0, (∀ n, u n ∈ Icc (0 : ℝ) 1) → Tendsto u atTop (𝓝 u0) → Tendsto (fun n => g n (u n)) atTop (𝓝 (G u0))) :
    Tendsto (fun n => riemann n (g n)) atTop (𝓝 (∫ u in (0 : ℝ)..1, G u)) := by
  have hmem : ∀ n : ℕ, ∀ u ∈ Icc (0 : ℝ) 1, (⌊n * u⌋₊ / n : ℝ) ∈ Icc (0 : ℝ) 1 := by
    intro n u hu
    refine ⟨by positivity, div_le_one_of_le₀ ?_ (Nat.cast_nonneg n)⟩
    have : (⌊n * u⌋₊ : ℝ) ≤ n * u := Nat.floor_le (mul_nonneg (Nat.cast_nonneg n) hu.1)
    nlinarith [hu.2, (Nat.cast_nonneg n : (0 : ℝ) ≤ n)]
  have hlim : ∀ u ∈ Icc (0 : ℝ) 1, Tendsto (fun n : ℕ => (⌊n * u⌋₊ / n : ℝ)) atTop (𝓝 u) := by
    intro u hu
    have := (tendsto_nat_floor_mul_div_atTop hu.1).comp (tendsto_natCast_atTop_atTop (R := ℝ))
    refine this.congr fun n => ?_
    simp only [Function.comp, mul_comm]
  have key : Tendsto (fun n : ℕ => ∫ u in (0 : ℝ)..1, g n (⌊n * u⌋₊ / n)) atTop (𝓝 (∫ u in (0 : ℝ)..1, G u)) := by
    refine intervalIntegral.tendsto_integral_filter_of_dominated_convergence (fun _ => C) ?_ ?_ intervalIntegrable_const ?_
    · refine Eventually.of_forall fun n => Measurable.aestronglyMeasurable ?_
      exact (measurable_from_nat (f := fun k : ℕ => g n (k / n))).comp (Nat.measurable_floor.comp (measurable_const_mul _))
    · refine Eventually.of_forall fun n => Eventually.of_forall fun u hu => ?_
      rw [uIoc_of_le zero_le_one] at hu
      exact hC n _ (hmem n u ⟨hu.1.le, hu.2⟩)
    · refine Eventually.of_forall fun u hu => ?_
      rw [uIoc_of_le zero_le_one] at hu
      have hu' : u ∈ Icc (0 : ℝ) 1 := ⟨hu.1.le, hu.2⟩
      exact hg _ _ (fun n => hmem n u hu') (hlim u hu')
  refine key.congr' ?_
  filter_upwards [eventually_gt_atTop 0] with n hn using (riemann_eq hn _).symm

theorem riemann_abs_le {n : ℕ} {g : ℝ → ℝ} {C : ℝ} (h0 : 0 ≤ C) (hC : ∀ u ∈ Icc (0 : ℝ) 1, |g u| ≤ C) : |riemann n g| ≤ C := by
  rcases Nat.eq_zero_or_pos n with rfl | hn
  · simpa [riemann] using h0
  have hn' : (0 : ℝ) < n := by exact_mod_cast hn
  rw [riemann, abs_mul, abs_of_pos (by positivity), one_div, inv_mul_le_iff₀ hn']
  refine (Finset.abs_sum_le_sum_abs _ _).trans ?_
  refine (Finset.sum_le_card_nsmul _ _ C fun k hk => hC _ ⟨by positivity, div_le_one_of_le₀ ?_ hn'.le⟩).trans_eq ?_
  · exact_mod_cast (Finset.mem_range.1 hk).le
  · simp

theorem riemann_continuous {g : ℝ → ℝ} (hg : Continuous g) : Tendsto (fun n => riemann n g) atTop (𝓝 (∫ u in (0 : ℝ)..1, g u)) := by
  obtain ⟨C, hC⟩ := isCompact_Icc.exists_bound_of_continuousOn (s := Icc (0 : ℝ) 1) hg.continuousOn
  exact riemann_tendsto (fun _ u hu => hC u hu) fun u u0 _ hu => (hg.tendsto u0).comp hu

/-- double Riemann sums -/
theorem riemann_double {h : ℝ → ℝ → ℝ} (hh : Continuous fun p : ℝ × ℝ => h p.1 p.2) :
    Tendsto (fun n => riemann n fun u => riemann n fun v => h u v) atTop (𝓝 (∫ u in (0 : ℝ)..1, ∫ v in (0 : ℝ)..1, h u v)) := by
  obtain ⟨C, hC⟩ := (isCompact_Icc.prod isCompact_Icc).exists_bound_of_continuousOn (s := Icc (0 : ℝ) 1 ×ˢ Icc (0 : ℝ) 1) hh.continuousOn
  have h0 : 0 ≤ C := (norm_nonneg _).trans (hC (0, 0) ⟨⟨le_rfl, zero_le_one⟩, le_rfl, zero_le_one⟩)
  refine riemann_tendsto (fun n u hu => riemann_abs_le h0 fun v hv => hC (u, v) ⟨hu, hv⟩) fun u u0 hu hlim => ?_
  refine riemann_tendsto (g := fun n v => h (u n) v) (fun n v hv => hC (u n, v) ⟨hu n, hv⟩) fun v v0 _ hv => ?_
  exact (hh.tendsto (u0, v0)).comp (hlim.prodMk_nhds hv)

end Verif
