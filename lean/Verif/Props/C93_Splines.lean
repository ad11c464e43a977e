import Verif.Props.C90_Averages

/-!
# C93: the predicted curve is the smoothing spline of the kernel

Of all curves built from the kernel, the predicted one trades the misfit to the data against its roughness best, and the log likelihood contains the
value of that trade.
-/

namespace Verif
open Matrix Kern Spec

/-- the curve `Σ α k cov(·, c k)` built from the covariance function: its average over the exposure of a coordinate, or its value at an instant -/
noncomputable def Spec.kernelCurve {ι : Type*} [Fintype ι] (κ : ℝ → ℝ) (c : ι → Coord) (α : ι → ℝ) (d : Coord) : ℝ := ∑ k, α k * exposureCov κ d (c k)

/-- roughness of that curve: the square of its norm in the space of the kernel -/
noncomputable def Spec.roughness {ι : Type*} [Fintype ι] (κ : ℝ → ℝ) (c : ι → Coord) (α : ι → ℝ) : ℝ := ∑ k, ∑ l, α k * α l * exposureCov κ (c k) (c l)

/-- misfit of values `f` to the data, in units of the noise -/
noncomputable def Spec.sqResidual {N : ℕ} (y R f : Fin N → ℝ) : ℝ := ∑ n, (y n - f n) ^ 2 / R n

/-- the value at an instant -/
theorem kernelCurve_time {ι : Type*} [Fintype ι] (κ : ℝ → ℝ) (s : ι → ℝ) (α : ι → ℝ) (t : ℝ) :
    kernelCurve κ (fun k => .time (s k)) α (.time t) = ∑ k, α k * κ |t - s k| := by
  unfold kernelCurve
  simp only [exposureCov_times]

section
variable {κ : ℝ → ℝ} {X : Arr Coord} {R y : Arr ℝ}

/-- the quadratic form of a curve and the data -/
theorem roughness_joint (hc : Continuous fun u => κ |u|) (h : PosSemidefFn κ) {ι : Type*} [Fintype ι] (c : ι → Coord) (α : ι → ℝ) (w : Fin X.len → ℝ) :
    2 * ∑ n, w n * kernelCurve κ c α (X.get n) ≤ roughness κ c α + roughness κ (fun n : Fin X.len => X.get n) w := by
  have h1 := exposureCov_quad hc h (Sum.elim c fun n : Fin X.len => X.get n) (Sum.elim α fun n => -w n)
  simp only [Fintype.sum_sum_type, Sum.elim_inl, Sum.elim_inr, Finset.sum_add_distrib] at h1
  unfold roughness kernelCurve
  have e1 : (∑ k, ∑ n : Fin X.len, α k * -w n * exposureCov κ (c k) (X.get n)) = -∑ n : Fin X.len, w n * ∑ k, α k * exposureCov κ (X.get n) (c k) := by
    rw [Finset.sum_comm, ← Finset.sum_neg_distrib]
    refine Finset.sum_congr rfl fun n _ => ?_
    rw [Finset.mul_sum, ← Finset.sum_neg_distrib]
    exact Finset.sum_congr rfl fun k _ => by rw [exposureCov_comm hc]; ring
  have e2 : (∑ n : Fin X.len, ∑ k, -w n * α k * exposureCov κ (X.get n) (c k)) = -∑ n : Fin X.len, w n * ∑ k, α k * exposureCov κ (X.get n) (c k) := by
    rw [← Finset.sum_neg_distrib]
    refine Finset.sum_congr rfl fun n _ => ?_
    rw [Finset.mul_sum, ← Finset.sum_neg_distrib]
    exact Finset.sum_congr rfl fun k _ => by ring
  have e3 : (∑ n : Fin X.len, ∑ m : Fin X.len, -w n * -w m * exposureCov κ (X.get n) (X.get m)) =
      ∑ n : Fin X.len, ∑ m : Fin X.len, w n * w m * exposureCov κ (X.get n) (X.get m) :=
    Finset.sum_congr rfl fun n _ => Finset.sum_congr rfl fun m _ => by ring
  rw [e1, e2, e3] at h1
  linarith

/-- what solves the linear system -/
theorem spline_solve (hK : (obsGram κ X R).PosDef) (y : Fin X.len → ℝ) (w : Fin X.len → ℝ) (hw : w = (obsGram κ X R)⁻¹ *ᵥ y) (n : Fin X.len) :
    y n - kernelCurve κ (fun n : Fin X.len => X.get n) w (X.get n) = R.get n * w n := by
  have h1 := congrFun (solve_spec hK y) n
  rw [← hw] at h1
  have h2 : (obsGram κ X R *ᵥ w) n = (∑ m : Fin X.len, exposureCov κ (X.get n) (X.get m) * w m) + R.get n * w n :=
    noisyGram_mulVec (fun i j : Fin X.len => exposureCov κ (X.get i) (X.get j)) (fun i => R.get i) w n
  rw [h2] at h1
  unfold kernelCurve
  have : (∑ m : Fin X.len, w m * exposureCov κ (X.get n) (X.get m)) = ∑ m : Fin X.len, exposureCov κ (X.get n) (X.get m) * w m :=
    Finset.sum_congr rfl fun m _ => mul_comm _ _
  rw [this]
  linarith

end

section
variable {kernel : Kern} {X : XArg} {solver : Option SolverKind} {κ : ℝ → ℝ} {diag : Option (ℝ ⊕ Arr ℝ)} {mean : Option (Coord → ℝ)} {u : Bool} {gp gpc : GP}
  {y : Arr ℝ} {lp : EReal}

/-- **C93.** The predicted curve and the conditioned means are those of one curve built from the kernel at the data, with weights `w`: the residuals are the
weights times the variances of the noise. No other curve built from the kernel, at whatever coordinates, has a smaller sum of misfit and roughness; one with
different averages over the exposures of the data has a larger sum; and the smallest sum is what the log likelihood contains. -/
theorem C93_smoothing_spline (h : Regression kernel X solver κ) (hnew : GP.new kernel X diag mean solver u = .ok gp)
    (hR : ∀ i < X.coords.len, 0 < (GP.noiseOf X.coords.len diag).get i) (hy : y.len = X.coords.len) (hcond : gp.condition y = .ok (lp, gpc)) :
    ∃ w : Fin X.coords.len → ℝ,
      (∀ ts : Arr ℝ, ∃ mu var, gpc.predict (some (.times ts)) = .ok (mu, var) ∧
        ∀ j < ts.len, mu.get j = kernelCurve κ (fun n : Fin X.coords.len => X.coords.get n) w (.time (ts.get j))) ∧
      (∀ n : Fin X.coords.len, gpc.mean.get n = kernelCurve κ (fun n : Fin X.coords.len => X.coords.get n) w (X.coords.get n) ∧
        y.get n - gpc.mean.get n = (GP.noiseOf X.coords.len diag).get n * w n) ∧
      ∀ J, J = sqResidual (fun n => y.get n) (fun n => (GP.noiseOf X.coords.len diag).get n) (fun n : Fin X.coords.len => gpc.mean.get n) +
          roughness κ (fun n : Fin X.coords.len => X.coords.get n) w →
        lp = ((-(1 / 2) * J - 1 / 2 * Real.log (obsGram κ X.coords (GP.noiseOf X.coords.len diag)).det - X.coords.len / 2 * Real.log (2 * Real.pi) : ℝ) : EReal) ∧
        ∀ (ι : Type) [Fintype ι] (c : ι → Coord) (α : ι → ℝ),
          J + ∑ n : Fin X.coords.len, (kernelCurve κ c α (X.coords.get n) - gpc.mean.get n) ^ 2 / (GP.noiseOf X.coords.len diag).get n ≤
            sqResidual (fun n => y.get n) (fun n => (GP.noiseOf X.coords.len diag).get n) (fun n : Fin X.coords.len => kernelCurve κ c α (X.coords.get n)) +
              roughness κ c α := by
  obtain ⟨hlp, -, var, -, -, hm⟩ := C61_condition h hnew hR hcond
  have pd := h.gram_pd hR
  set R := GP.noiseOf X.coords.len diag with hRd
  set w := (obsGram κ X.coords R)⁻¹ *ᵥ fun n : Fin X.coords.len => y.get n with hw
  have hcurve : ∀ d, postMean (obsGram κ X.coords R) (fun j => y.get j) (obsCross κ d X.coords) = kernelCurve κ (fun n : Fin X.coords.len => X.coords.get n) w d := fun d => by
    unfold postMean kernelCurve dotProduct
    exact Finset.sum_congr rfl fun n _ => mul_comm _ _
  have hmean : ∀ n : Fin X.coords.len, gpc.mean.get n = kernelCurve κ (fun n : Fin X.coords.len => X.coords.get n) w (X.coords.get n) := fun n => by
    rw [(hm n n.2).1, hcurve]
  have hres : ∀ n : Fin X.coords.len, y.get n - gpc.mean.get n = R.get n * w n := fun n => by
    rw [hmean]
    exact spline_solve pd _ w hw n
  have hrough : roughness κ (fun n : Fin X.coords.len => X.coords.get n) w = ∑ n : Fin X.coords.len, w n * gpc.mean.get n := by
    unfold roughness
    refine Finset.sum_congr rfl fun n _ => ?_
    rw [hmean]
    unfold kernelCurve
    rw [Finset.mul_sum]
    exact Finset.sum_congr rfl fun m _ => by ring
  refine ⟨w, fun ts => ?_, fun n => ⟨hmean n, hres n⟩, ?_⟩
  · obtain ⟨mu, var, hp, -, -, hp'⟩ := C61_predict h hnew hR hcond ts
    exact ⟨mu, var, hp, fun j hj => by rw [(hp' j hj).1, hcurve]⟩
  rintro J rfl
  refine ⟨?_, fun ι _ c α => ?_⟩
  · have h1 := Except.ok.inj (hlp.symm.trans (C61_log_probability h hnew hy hR))
    rw [h1]
    congr 1
    unfold gaussLogDensity
    rw [← hw, Fintype.card_fin, hrough]
    have e : (fun n : Fin X.coords.len => y.get n) ⬝ᵥ w = sqResidual (fun n => y.get n) (fun n => R.get n) (fun n : Fin X.coords.len => gpc.mean.get n) +
        ∑ n : Fin X.coords.len, w n * gpc.mean.get n := by
      unfold sqResidual dotProduct
      rw [← Finset.sum_add_distrib]
      refine Finset.sum_congr rfl fun n _ => ?_
      rw [hres n]
      have := (hR n n.2).ne'
      have h2 := hres n
      field_simp
      linear_combination w n * h2
    rw [e]
  · have h1 := roughness_joint h.continuous h.psd c α w
    rw [hrough] at h1 ⊢
    have e : sqResidual (fun n => y.get n) (fun n => R.get n) (fun n : Fin X.coords.len => kernelCurve κ c α (X.coords.get n)) =
        sqResidual (fun n => y.get n) (fun n => R.get n) (fun n : Fin X.coords.len => gpc.mean.get n) +
        ∑ n : Fin X.coords.len, (kernelCurve κ c α (X.coords.get n) - gpc.mean.get n) ^ 2 / R.get n -
        2 * ∑ n : Fin X.coords.len, w n * kernelCurve κ c α (X.coords.get n) + 2 * ∑ n : Fin X.coords.len, w n * gpc.mean.get n := by
      unfold sqResidual
      rw [Finset.mul_sum, Finset.mul_sum, ← Finset.sum_add_distrib, ← Finset.sum_sub_distrib, ← Finset.sum_add_distrib]
      refine Finset.sum_congr rfl fun n _ => ?_
      have := (hR n n.2).ne'
      have h2 := hres n
      have h3 : w n = (y.get n - gpc.mean.get n) / R.get n := by rw [h2]; field_simp
      rw [h3]
      field_simp
      ring
    rw [e]
    linarith

end

/-- C93 applies: no combination of three exponential functions centred at -1, 0 and 4 fits two data better than the predicted curve, roughness counted -/
example (y : Arr ℝ) (hy : y.len = 2) (a b c : ℝ) : ∃ gp lp gpc w, GP.new (.exp 1 1 "a") (.times twoT) (some (.inl 1)) none none false = .ok gp ∧
    gp.condition y = .ok (lp, gpc) ∧ sqResidual (N := 2) (fun n => y.get n) (fun _ => 1) (fun n => gpc.mean.get n) +
      roughness (covExp 1 1) (fun n : Fin 2 => .time (twoT.get n)) w ≤
    sqResidual (N := 2) (fun n => y.get n) (fun _ => 1) (fun n => a * Real.exp (-|twoT.get n + 1|) + b * Real.exp (-|twoT.get n|) + c * Real.exp (-|twoT.get n - 4|)) +
      roughness (covExp 1 1) ![.time (-1), .time 0, .time 4] ![a, b, c] := by
  obtain ⟨gp, lp, gpc, h, hc⟩ := exp_gp twoT (by show (2 : ℕ) ≠ 1; decide) (some (.inl 1)) y
  obtain ⟨w, -, -, hJ⟩ := C93_smoothing_spline (exp_regression twoT_sorted (by show 0 < 2; decide)) h two_noise hy hc
  refine ⟨gp, lp, gpc, w, h, hc, ?_⟩
  have h1 := (hJ _ rfl).2 (Fin 3) ![.time (-1), .time 0, .time 4] ![a, b, c]
  refine le_trans ?_ (h1.trans_eq ?_)
  · exact le_add_of_nonneg_right (Finset.sum_nonneg fun n _ => div_nonneg (sq_nonneg _) (two_noise n n.2).le)
  · refine congrArg (· + _) (congrArg (sqResidual (N := 2) _ _) ?_)
    funext n
    show kernelCurve _ _ _ (.time (twoT.get n)) = _
    simp [kernelCurve, Fin.sum_univ_three, exposureCov_times, covExp]

end Verif
