import Verif.Props.C11_ExposureAverage
import Mathlib.Order.Filter.AtTopBot.Basic

/-!
# Underdamped oscillators of large amplitude

The cut of small entries in the process noise of underdamped `SHO`s does not act if the amplitude is large enough, so the hypothesis
`NoiseOnEvents` of the properties of integrated data is met by underdamped oscillators too.
-/

namespace Verif
open Matrix Filter

theorem trunc_eventually (x : ℝ) : ∀ᶠ σ : ℝ in atTop, (if |σ ^ 2 * x| < 1e-14 then 0 else σ ^ 2 * x) = σ ^ 2 * x := by
  by_cases hx : x = 0
  · subst hx; exact Eventually.of_forall fun σ => by simp
  · have hp : 0 < |x| := abs_pos.2 hx
    filter_upwards [eventually_ge_atTop (max 1 (1 / |x|))] with σ hσ
    refine if_neg (not_lt.2 ?_)
    have h1 : 1 ≤ σ := (le_max_left _ _).trans hσ
    have h2 : 1 / |x| ≤ σ := (le_max_right _ _).trans hσ
    rw [abs_mul, abs_of_nonneg (sq_nonneg σ)]
    have h3 : 1 ≤ σ * |x| := by rwa [div_le_iff₀ hp] at h2
    have h4 : 1 ≤ σ ^ 2 * |x| := by nlinarith
    exact le_trans (by norm_num) h4

theorem QunderExact_scale (w q sigma dt : ℝ) (i j : Fin 2) :
    SHO.QunderExact w q sigma dt i j = sigma ^ 2 * SHO.QunderExact w q 1 dt i j := by
  fin_cases i <;> fin_cases j <;> simp [SHO.QunderExact]

theorem integratedSHO_noise_eventually {w q : ℝ} (m : ℕ) (name : String) (hw : 0 < w) (hq : 1 / 2 < q) (hc : ¬ SHO.isCritical q)
    {s : ℝ} (hs : 0 ≤ s) : ∀ᶠ σ : ℝ in atTop, (integratedSHO w q σ m name).NoiseIntegralOver s := by
  have hu : ¬ SHO.isCritical q ∧ q > 0.5 := ⟨hc, by norm_num; linarith⟩
  have ok : SHO.Genuine q := Or.inr hc
  have hq0 : 0 < q := by linarith
  have h11 : ∀ᶠ σ : ℝ in atTop, ∀ i j : Fin 2, SHO.truncate (SHO.QunderExact w q σ s) i j = SHO.QunderExact w q σ s i j := by
    rw [eventually_all]; intro i; rw [eventually_all]; intro j
    filter_upwards [trunc_eventually (SHO.QunderExact w q 1 s i j)] with σ hσ
    rw [← QunderExact_scale] at hσ
    exact hσ
  have h12 : ∀ᶠ σ : ℝ in atTop, ∀ i : Fin 2, IntegratedSHO.trunc (σ ^ 2 * IntegratedSHO.iQ12 w q s i) = σ ^ 2 * IntegratedSHO.iQ12 w q s i := by
    rw [eventually_all]; intro i
    exact trunc_eventually _
  have h22 : ∀ᶠ σ : ℝ in atTop, IntegratedSHO.trunc (σ ^ 2 * IntegratedSHO.iQ22 w q s) = σ ^ 2 * IntegratedSHO.iQ22 w q s :=
    trunc_eventually _
  filter_upwards [h11, h12, h22] with σ g11 g12 g22
  intro i j
  have key := augNoise_integral (base := sho w q σ) (0 : Fin 2) name m (transpose_one_by_one _) s i j
  refine Eq.trans ?_ key
  have hQ := QFromVanLoan_stationary (Leaf.sho (shoOk := SHO.Any) (sigma := σ) (name := "SHO") hw hq0 trivial).lyapunov s
  have hA : SHO.Aunder w q s = NormedSpace.exp (s • SHO.F w q) := by
    have := (Leaf.sho (sigma := σ) (name := "SHO") hw hq0 ok).transitionIsExp (.time 0) (.time s)
    have e : (sho w q σ).A (.time 0) (.time s) = SHO.Aunder w q (s - 0) := by
      show SHO.A w q _ = _
      unfold SHO.A
      rw [if_neg hc, if_pos hu.2]
      rfl
    rw [sub_zero] at e
    rw [show (Coord.time s).sortable - (Coord.time 0).sortable = s from sub_zero s] at this
    exact e.symm.trans this
  have e12 : ∀ a : Fin 2, IntegratedSHO.q12 w q σ 0 s a = defaultQ12 (sho w q σ) (0 : Fin 2) 0 s a := by
    intro a
    unfold IntegratedSHO.q12
    rw [if_pos hu, sub_zero, g12, IntegratedSHO.iQ12_eq σ "SHO" hw hq]
    unfold defaultQ12
    rw [sub_zero]
  rcases i with i | i <;> rcases j with j | j
  · show SHO.Q w q σ (s - 0 - 0) i j = QFromVanLoan (sho w q σ).F (sho w q σ).L (sho w q σ).Qc s i j
    rw [sub_zero, sub_zero, hQ]
    unfold SHO.Q
    rw [if_neg hc, if_pos hu.2]
    refine (g11 i j).trans ?_
    have h := SHO.Qunder_eq σ hw.ne' hq s
    rw [hA] at h
    exact congrFun₂ h i j
  · exact e12 i
  · exact e12 j
  · show IntegratedSHO.q22 w q σ 0 s = defaultQ22 (sho w q σ) (0 : Fin 2) 0 s
    unfold IntegratedSHO.q22
    rw [if_pos hu, sub_zero, max_eq_left (IntegratedSHO.iQ22_nonneg hw hq hs), g22, IntegratedSHO.iQ22_eq σ "SHO" hw hq]

/-- for every schedule, every underdamped oscillator of sufficiently large amplitude has exact noise between the exposure edges -/
theorem integratedSHO_noiseOnEvents {w q : ℝ} (m : ℕ) (name : String) (hw : 0 < w) (hq : 1 / 2 < q) (hc : ¬ SHO.isCritical q)
    (X : Arr Coord) : ∀ᶠ σ : ℝ in atTop, (integratedSHO w q σ m name).NoiseOnEvents X := by
  have h : ∀ j ∈ Finset.range (2 * X.len), ∀ᶠ σ : ℝ in atTop, j + 1 < 2 * X.len →
      (integratedSHO w q σ m name).NoiseIntegralOver ((stateCoords X).t.get (j + 1) - (stateCoords X).t.get j) := by
    intro j _
    by_cases hj : j + 1 < 2 * X.len
    · filter_upwards [integratedSHO_noise_eventually m name hw hq hc
        (sub_nonneg.2 (sc_sorted _ _ (Nat.le_succ j) (by rw [sc_len]; exact hj)))] with σ hσ _
      exact hσ
    · exact Eventually.of_forall fun _ h => absurd h hj
  have h' := (Finset.eventually_all (Finset.range (2 * X.len))).2 h
  filter_upwards [h'] with σ hσ j hj
  exact hσ j (Finset.mem_range.2 (by omega)) hj

end Verif
