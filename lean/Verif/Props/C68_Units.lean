import Verif.Props.C65_Data
import Verif.Props.C01_AtGaps
import Verif.Props.C28_Likelihood

/-!
# C68: units

Times may be given in any unit and from any origin, and values in any unit: converting the kernel parameters, the exposures, the noise and the data
converts the results, and changes the log likelihood by the Jacobian only.
-/

namespace Verif
open Matrix Kern Spec

/-- The kernel with its parameters in new units: times are multiplied by `a`, values by `c`. Of a product only the first factor carries the
unit of the values. -/
noncomputable def Kern.inUnits (a : ℝ) : ℝ → Kern → Kern
  | c, .constant sigma s => .constant (c * sigma) s
  | c, .sho omega quality sigma s => .sho (omega / a) quality (c * sigma) s
  | c, .exp l sigma s => .exp (a * l) (c * sigma) s
  | c, .matern32 l sigma s => .matern32 (a * l) (c * sigma) s
  | c, .matern52 l sigma s => .matern52 (a * l) (c * sigma) s
  | c, .cosine l sigma s => .cosine (a * l) (c * sigma) s
  | c, .expSineSquared p gamma sigma order s => .expSineSquared (a * p) gamma (c * sigma) order s
  | c, .integratedSHO omega quality sigma m s => .integratedSHO (omega / a) quality (c * sigma) m s
  | c, .integratedExp l sigma m s => .integratedExp (a * l) (c * sigma) m s
  | c, .integratedMatern32 l sigma m s => .integratedMatern32 (a * l) (c * sigma) m s
  | c, .integratedMatern52 l sigma m s => .integratedMatern52 (a * l) (c * sigma) m s
  | c, .integratedCosine l sigma m s => .integratedCosine (a * l) (c * sigma) m s
  | c, .scale s k f => .scale s (k.inUnits a c) f
  | c, .sum kernel1 kernel2 => .sum (kernel1.inUnits a c) (kernel2.inUnits a c)
  | c, .prod kernel1 kernel2 => .prod (kernel1.inUnits a c) (kernel2.inUnits a 1)

/-- coordinates in new units: times are multiplied by `a` and counted from another origin -/
noncomputable def XArg.inUnits (a b : ℝ) : XArg → XArg
  | .times t => .times (t.map fun s => a * s + b)
  | .pair t d => .pair (t.map fun s => a * s + b) (d.map fun s => a * s)
  | .triple t d i => .triple (t.map fun s => a * s + b) (d.map fun s => a * s) i

noncomputable def Coord.inUnits (a b : ℝ) : Coord → Coord
  | .time t => .time (a * t + b)
  | .exposure t d i => .exposure (a * t + b) (a * d) i

theorem XArg.inUnits_coords (a b : ℝ) (X : XArg) : (X.inUnits a b).coords = X.coords.map (Coord.inUnits a b) := by
  cases X <;> rfl

section units
variable {a b c : ℝ}

theorem Coord.inUnits_at (ha : 0 < a) (X : Coord) (u : ℝ) : (X.inUnits a b).at u = a * X.at u + b := by
  cases X with
  | time t => simp [Coord.inUnits, Coord.at, Coord.sortable, Coord.delta]
  | exposure t d i =>
    simp only [Coord.inUnits, Coord.at, Coord.sortable, Coord.delta]
    rw [show max (a * d) 0 = a * max d 0 by rw [mul_max_of_nonneg _ _ ha.le, mul_zero]]
    ring

theorem exposureCov_inUnits (ha : 0 < a) (κ : ℝ → ℝ) (X Y : Coord) :
    exposureCov (fun r => c ^ 2 * κ (r / a)) (X.inUnits a b) (Y.inUnits a b) = c ^ 2 * exposureCov κ X Y := by
  rw [exposureCov_unit, exposureCov_unit]
  simp only [Coord.inUnits_at ha]
  rw [← intervalIntegral.integral_const_mul]
  congr 1
  funext u
  rw [← intervalIntegral.integral_const_mul]
  congr 1
  funext v
  rw [show a * X.at u + b - (a * Y.at v + b) = a * (X.at u - Y.at v) by ring, abs_mul, abs_of_pos ha, mul_div_cancel_left₀ _ ha.ne']

theorem obsGram_inUnits (ha : 0 < a) (κ : ℝ → ℝ) (X : Arr Coord) {R R' : Arr ℝ} (hR : ∀ i < X.len, R'.get i = c ^ 2 * R.get i) :
    obsGram (fun r => c ^ 2 * κ (r / a)) (X.map (Coord.inUnits a b)) R' = c ^ 2 • obsGram κ X R := by
  ext i j
  show exposureCov _ ((X.get i).inUnits a b) ((X.get j).inUnits a b) + (if i = j then R'.get i else 0) =
    c ^ 2 * (exposureCov κ (X.get i) (X.get j) + if i = j then R.get i else 0)
  rw [exposureCov_inUnits ha, mul_add]
  congr 1
  split_ifs
  · exact hR i i.2
  · simp

theorem obsCross_inUnits (ha : 0 < a) (κ : ℝ → ℝ) (X : Arr Coord) (Xs : Coord) :
    obsCross (fun r => c ^ 2 * κ (r / a)) (Xs.inUnits a b) (X.map (Coord.inUnits a b)) = c ^ 2 • obsCross κ Xs X := by
  funext j
  exact exposureCov_inUnits ha κ _ _

theorem logDensity_inUnits {N : ℕ} {K : Matrix (Fin N) (Fin N) ℝ} (hK : K.PosDef) (hc : c ≠ 0) (y : Fin N → ℝ) :
    gaussLogDensity (c ^ 2 • K) (c • y) = gaussLogDensity K y - N * Real.log |c| := by
  have hi : (c ^ 2 • K)⁻¹ = (c ^ 2)⁻¹ • K⁻¹ := by
    refine Matrix.inv_eq_right_inv ?_
    rw [Matrix.smul_mul, Matrix.mul_smul, smul_smul, mul_inv_cancel₀ (pow_ne_zero 2 hc), one_smul, Matrix.mul_nonsing_inv _ (pd_det hK)]
  unfold gaussLogDensity
  rw [hi, Matrix.det_smul, Fintype.card_fin, smul_mulVec, mulVec_smul, smul_dotProduct, dotProduct_smul, dotProduct_smul,
    Real.log_mul (pow_ne_zero _ (pow_ne_zero 2 hc)) hK.det_pos.ne', Real.log_pow, Real.log_pow, ← Real.log_abs]
  simp only [smul_eq_mul]
  field_simp
  push_cast
  ring

theorem postMean_inUnits {N : ℕ} {K : Matrix (Fin N) (Fin N) ℝ} (hK : K.PosDef) (hc : c ≠ 0) (y x : Fin N → ℝ) :
    postMean (c ^ 2 • K) (c • y) (c ^ 2 • x) = c * postMean K y x := by
  have hi : (c ^ 2 • K)⁻¹ = (c ^ 2)⁻¹ • K⁻¹ := by
    refine Matrix.inv_eq_right_inv ?_
    rw [Matrix.smul_mul, Matrix.mul_smul, smul_smul, mul_inv_cancel₀ (pow_ne_zero 2 hc), one_smul, Matrix.mul_nonsing_inv _ (pd_det hK)]
  unfold postMean
  rw [hi, smul_mulVec, mulVec_smul, smul_dotProduct, dotProduct_smul, dotProduct_smul]
  simp only [smul_eq_mul]
  field_simp

theorem postVar_inUnits {N : ℕ} {K : Matrix (Fin N) (Fin N) ℝ} (hK : K.PosDef) (hc : c ≠ 0) (v : ℝ) (x : Fin N → ℝ) :
    postVar (c ^ 2 • K) (c ^ 2 * v) (c ^ 2 • x) = c ^ 2 * postVar K v x := by
  have hi : (c ^ 2 • K)⁻¹ = (c ^ 2)⁻¹ • K⁻¹ := by
    refine Matrix.inv_eq_right_inv ?_
    rw [Matrix.smul_mul, Matrix.mul_smul, smul_smul, mul_inv_cancel₀ (pow_ne_zero 2 hc), one_smul, Matrix.mul_nonsing_inv _ (pd_det hK)]
  unfold postVar
  rw [hi, smul_mulVec, mulVec_smul, smul_dotProduct, dotProduct_smul, dotProduct_smul]
  simp only [smul_eq_mul]
  field_simp

/-! ### the kernels -/

theorem covExp_inUnits (ha : a ≠ 0) {s : ℝ} (hs : s ≠ 0) (sigma r : ℝ) : covExp (a * s) (c * sigma) r = c ^ 2 * covExp s sigma (r / a) := by
  unfold covExp
  rw [show -r / (a * s) = -(r / a) / s by field_simp]
  ring

theorem covMatern32_inUnits (ha : a ≠ 0) {s : ℝ} (hs : s ≠ 0) (sigma r : ℝ) :
    covMatern32 (a * s) (c * sigma) r = c ^ 2 * covMatern32 s sigma (r / a) := by
  unfold covMatern32
  rw [show Real.sqrt 3 / (a * s) * r = Real.sqrt 3 / s * (r / a) by field_simp]
  ring

theorem covMatern52_inUnits (ha : a ≠ 0) {s : ℝ} (hs : s ≠ 0) (sigma r : ℝ) :
    covMatern52 (a * s) (c * sigma) r = c ^ 2 * covMatern52 s sigma (r / a) := by
  unfold covMatern52
  rw [show Real.sqrt 5 / (a * s) * r = Real.sqrt 5 / s * (r / a) by field_simp,
    show (Real.sqrt 5 / (a * s)) ^ 2 * r ^ 2 = (Real.sqrt 5 / s) ^ 2 * (r / a) ^ 2 by field_simp]
  ring

theorem covCosine_inUnits (ha : a ≠ 0) {s : ℝ} (hs : s ≠ 0) (sigma r : ℝ) :
    covCosine (a * s) (c * sigma) r = c ^ 2 * covCosine s sigma (r / a) := by
  unfold covCosine
  rw [show 2 * Real.pi * r / (a * s) = 2 * Real.pi * (r / a) / s by field_simp]
  ring

theorem covSHO_inUnits (w q sigma r : ℝ) : covSHO (w / a) q (c * sigma) r = c ^ 2 * covSHO w q sigma (r / a) := by
  unfold covSHO
  have e1 : w / a * r = w * (r / a) := by ring
  have e2 : ∀ z : ℝ, z * (w / a) * r = z * w * (r / a) := fun z => by ring
  simp only [e1, e2]
  ring

theorem Kern.Valid.inUnits (ha : 0 < a) {k : Kern} (h : k.Valid) : ∀ {c : ℝ}, c ≠ 0 → (k.inUnits a c).Valid := by
  induction h with
  | exp hs hσ => exact fun hc => .exp (mul_pos ha hs) (mul_ne_zero hc hσ)
  | matern32 hs hσ => exact fun hc => .matern32 (mul_pos ha hs) (mul_ne_zero hc hσ)
  | matern52 hs hσ => exact fun hc => .matern52 (mul_pos ha hs) (mul_ne_zero hc hσ)
  | cosine hs hσ => exact fun hc => .cosine (mul_pos ha hs) (mul_ne_zero hc hσ)
  | expSineSquared hp hg hσ => exact fun hc => .expSineSquared (mul_pos ha hp) hg (mul_ne_zero hc hσ)
  | sho hw hq hd hσ => exact fun hc => .sho (div_pos hw ha) hq hd (mul_ne_zero hc hσ)
  | sum _ _ h1 h2 => exact fun hc => .sum (h1 hc) (h2 hc)
  | prod _ _ h1 h2 => exact fun hc => .prod (h1 hc) (h2 one_ne_zero)

theorem expSineSquared_zero (period gamma sigma : ℝ) (name : String) :
    Verif.expSineSquared period gamma sigma 0 name = Verif.expSineSquared period gamma sigma 1 name := rfl

theorem Kern.Valid.evaluate_inUnits (ha : 0 < a) {k : Kern} (h : k.Valid) : ∀ (c s t : ℝ),
    (k.inUnits a c).model.evaluate (.time (a * s)) (.time (a * t)) = c ^ 2 * k.model.evaluate (.time s) (.time t) := by
  have e : ∀ s t : ℝ, |a * s - a * t| / a = |s - t| := fun s t => by
    rw [← mul_sub, abs_mul, abs_of_pos ha, mul_div_cancel_left₀ _ ha.ne']
  induction h with
  | @exp l sigma s hs hσ =>
    intro c x y
    rw [show (Kern.exp l sigma s).model.evaluate = (expKernel l sigma s).evaluate from rfl, C24_exp l sigma s hs,
      show ((Kern.exp l sigma s).inUnits a c).model.evaluate = (expKernel (a * l) (c * sigma) s).evaluate from rfl,
      C24_exp _ _ _ (mul_pos ha hs), covExp_inUnits ha.ne' hs.ne']
    simp only [Coord.sortable, e]
  | @matern32 l sigma s hs hσ =>
    intro c x y
    rw [show (Kern.matern32 l sigma s).model.evaluate = (Verif.matern32 l sigma s).evaluate from rfl, C24_matern32 l sigma s hs,
      show ((Kern.matern32 l sigma s).inUnits a c).model.evaluate = (Verif.matern32 (a * l) (c * sigma) s).evaluate from rfl,
      C24_matern32 _ _ _ (mul_pos ha hs), covMatern32_inUnits ha.ne' hs.ne']
    simp only [Coord.sortable, e]
  | @matern52 l sigma s hs hσ =>
    intro c x y
    rw [show (Kern.matern52 l sigma s).model.evaluate = (Verif.matern52 l sigma s).evaluate from rfl, C24_matern52 l sigma s hs,
      show ((Kern.matern52 l sigma s).inUnits a c).model.evaluate = (Verif.matern52 (a * l) (c * sigma) s).evaluate from rfl,
      C24_matern52 _ _ _ (mul_pos ha hs), covMatern52_inUnits ha.ne' hs.ne']
    simp only [Coord.sortable, e]
  | @cosine l sigma s hs hσ =>
    intro c x y
    rw [show (Kern.cosine l sigma s).model.evaluate = (Verif.cosine l sigma s).evaluate from rfl, C24_cosine l sigma s hs,
      show ((Kern.cosine l sigma s).inUnits a c).model.evaluate = (Verif.cosine (a * l) (c * sigma) s).evaluate from rfl,
      C24_cosine _ _ _ (mul_pos ha hs), covCosine_inUnits ha.ne' hs.ne']
    simp only [Coord.sortable, e]
  | @expSineSquared period gamma sigma order name hp hg hσ =>
    intro c x y
    have key : ∀ order, 0 < order → (Verif.expSineSquared (a * period) gamma (c * sigma) order name).evaluate (.time (a * x)) (.time (a * y)) =
        c ^ 2 * (Verif.expSineSquared period gamma sigma order name).evaluate (.time x) (.time y) := by
      intro order ho
      rw [C29_series _ _ _ _ _ ho, C29_series _ _ _ _ _ ho, mul_pow, mul_assoc]
      congr 2
      refine Finset.sum_congr rfl fun j _ => ?_
      congr 2
      simp only [Coord.sortable]
      field_simp
    rcases Nat.eq_zero_or_pos order with h0 | h0
    · subst h0
      exact key 1 one_pos
    · exact key order h0
  | @sho w q sigma s hw hq hd hσ =>
    intro c x y
    obtain ⟨q', h1, h2⟩ : ∃ q', (Verif.sho w q sigma s).HasCov (Spec.covSHO w q' sigma) ∧
        (Verif.sho (w / a) q (c * sigma) s).HasCov (Spec.covSHO (w / a) q' (c * sigma)) := by
      by_cases hcr : SHO.isCritical q
      · exact ⟨1 / 2, C24_sho_window _ _ _ _ hw hq hcr, C24_sho_window _ _ _ _ (div_pos hw ha) hq hcr⟩
      · exact ⟨q, C24_sho _ _ _ _ hw hq (.inr hcr), C24_sho _ _ _ _ (div_pos hw ha) hq (.inr hcr)⟩
    rw [show (Kern.sho w q sigma s).model.evaluate = (Verif.sho w q sigma s).evaluate from rfl, h1,
      show ((Kern.sho w q sigma s).inUnits a c).model.evaluate = (Verif.sho (w / a) q (c * sigma) s).evaluate from rfl,
      h2, covSHO_inUnits]
    simp only [Coord.sortable, e]
  | @sum k1 k2 _ _ h1 h2 =>
    intro c x y
    show ((k1.inUnits a c).model.sum (k2.inUnits a c).model).evaluate _ _ = c ^ 2 * (k1.model.sum k2.model).evaluate _ _
    rw [C27_sum_evaluate, C27_sum_evaluate, h1, h2]
    ring
  | @prod k1 k2 _ _ h1 h2 =>
    intro c x y
    show ((k1.inUnits a c).model.prod (k2.inUnits a 1).model).evaluate _ _ = c ^ 2 * (k1.model.prod k2.model).evaluate _ _
    rw [C27_prod_evaluate, C27_prod_evaluate, h1, h2]
    ring

theorem Kern.Valid.hasCov_inUnits (ha : 0 < a) (hc : c ≠ 0) {k : Kern} (h : k.Valid) {κ : ℝ → ℝ} (hκ : k.model.HasCov κ) :
    (k.inUnits a c).model.HasCov fun r => c ^ 2 * κ (r / a) := by
  obtain ⟨κ', hκ'⟩ := (h.inUnits ha hc).hasCov
  have key : ∀ x y : ℝ, κ' |x - y| = c ^ 2 * κ (|x - y| / a) := fun x y => by
    have h1 := hκ' (.time (a * (x / a))) (.time (a * (y / a)))
    rw [h.evaluate_inUnits ha, hκ] at h1
    simp only [Coord.sortable, mul_div_cancel₀ _ ha.ne'] at h1
    rw [← h1, ← sub_div, abs_div, abs_of_pos ha]
  exact fun X1 X2 => (hκ' X1 X2).trans (key _ _)

theorem Kern.uses_inUnits (k : Kern) : ∀ {c : ℝ}, Uses IsExp (k.inUnits a c) → Uses IsExp k := by
  induction k with
  | sum k1 k2 h1 h2 =>
    intro c h
    cases h with
    | here h => rcases h with ⟨_, _, _, h⟩ | ⟨_, _, _, _, h⟩ <;> cases h
    | inSumLeft h => exact .inSumLeft (h1 h)
    | inSumRight h => exact .inSumRight (h2 h)
  | prod k1 k2 h1 h2 =>
    intro c h
    cases h with
    | here h => rcases h with ⟨_, _, _, h⟩ | ⟨_, _, _, _, h⟩ <;> cases h
    | inProdLeft h => exact .inProdLeft (h1 h)
    | inProdRight h => exact .inProdRight (h2 h)
  | scale name k f ih =>
    intro c h
    cases h with
    | here h => rcases h with ⟨_, _, _, h⟩ | ⟨_, _, _, _, h⟩ <;> cases h
    | inScale h => exact .inScale (ih h)
  | exp l sigma s => exact fun _ => .here (.inl ⟨_, _, _, rfl⟩)
  | integratedExp l sigma m s => exact fun _ => .here (.inr ⟨_, _, _, _, rfl⟩)
  | _ =>
    intro c h
    cases h with
    | here h => rcases h with ⟨_, _, _, h⟩ | ⟨_, _, _, _, h⟩ <;> cases h

theorem Kern.Integrates.inUnits (ha : 0 < a) (hc : c ≠ 0) {m : ℕ} {k : Kern} {κ : ℝ → ℝ} (h : k.Integrates False m κ) :
    (k.inUnits a c).Integrates False m fun r => c ^ 2 * κ (r / a) := by
  induction h with
  | exp hs hσ hm =>
    rw [← funext (covExp_inUnits ha.ne' hs.ne' _)]
    exact .exp (mul_pos ha hs) (mul_ne_zero hc hσ) hm
  | matern32 hs hσ hm =>
    rw [← funext (covMatern32_inUnits ha.ne' hs.ne' _)]
    exact .matern32 (mul_pos ha hs) (mul_ne_zero hc hσ) hm
  | matern52 hs hσ hm =>
    rw [← funext (covMatern52_inUnits ha.ne' hs.ne' _)]
    exact .matern52 (mul_pos ha hs) (mul_ne_zero hc hσ) hm
  | sho hw hq hd hσ hm =>
    rw [← funext (covSHO_inUnits _ _ _)]
    exact .sho (div_pos hw ha) hq hd (mul_ne_zero hc hσ) hm
  | cosine ok _ _ => exact ok.elim
  | sum _ _ h1 h2 =>
    simp only [mul_add]
    exact .sum h1 h2

/-- exact regression remains exact in other units -/
theorem Regression.inUnits (ha : 0 < a) (hc : c ≠ 0) (b : ℝ) {kernel : Kern} {X : XArg} {solver : Option SolverKind} {κ : ℝ → ℝ}
    (h : Regression kernel X solver κ) : Regression (kernel.inUnits a c) (X.inUnits a b) solver fun r => c ^ 2 * κ (r / a) := by
  have hmono : ∀ {t : Arr ℝ}, Sorted t → Sorted (t.map fun s => a * s + b) := fun ht i j hij hj => by
    show a * _ + b ≤ a * _ + b
    have := mul_le_mul_of_nonneg_left (ht i j hij hj) ha.le
    linarith
  cases h with
  | sequential hv hκ hsol ht hN => exact .sequential (hv.inUnits ha hc) (hv.hasCov_inUnits ha hc hκ) hsol (hmono ht) hN
  | parallel hv hκ hexp ht hN =>
    exact .parallel (hv.inUnits ha hc) (hv.hasCov_inUnits ha hc hκ) (fun h => hexp (kernel.uses_inUnits h)) (hmono ht) hN
  | integrated hk hsol hX hd hN =>
    rename_i t d inst m
    have e1 : ∀ z w : ℝ, a * z + b - a * w / 2 = a * (z - w / 2) + b := fun z w => by ring
    have e2 : ∀ z w : ℝ, a * z + b + a * w / 2 = a * (z + w / 2) + b := fun z w => by ring
    refine .integrated (hk.inUnits ha hc) ?_ ⟨fun n hn => ?_, fun n hn => hX.inst n hn, fun i hi j hj hij hins => ?_⟩ ⟨fun n hn => ?_,
      fun i hi j hj hij => ?_⟩ hN
    · rcases hsol with h | h | ⟨h, hp⟩
      · exact .inl h
      · exact .inr (.inl h)
      · exact .inr (.inr ⟨h, fun h => hp.noExp (kernel.uses_inUnits h), hp.nonempty, fun n hn => mul_pos ha (hp.pos n hn)⟩)
    · exact mul_nonneg ha.le (hX.delta_nonneg n hn)
    · show a * t.get i + b + a * d.get i / 2 ≤ a * t.get j + b - a * d.get j / 2 ∨ a * t.get j + b + a * d.get j / 2 ≤ a * t.get i + b - a * d.get i / 2
      rw [e1, e1, e2, e2]
      refine (hX.disjoint i hi j hj hij hins).imp (fun h => ?_) fun h => ?_
      · have := mul_le_mul_of_nonneg_left h ha.le
        exact add_le_add_left this b
      · have := mul_le_mul_of_nonneg_left h ha.le
        exact add_le_add_left this b
    · exact mul_pos ha (hd.pos n hn)
    · show a * t.get i + b - a * d.get i / 2 ≠ a * t.get j + b - a * d.get j / 2
      rw [e1, e1]
      intro h
      exact hd.ne i hi j hj hij (mul_left_cancel₀ ha.ne' (add_right_cancel h))

end units

section
variable {kernel : Kern} {X : XArg} {solver : Option SolverKind} {κ : ℝ → ℝ} {diag diag' : Option (ℝ ⊕ Arr ℝ)}
  {mean mean' : Option (Coord → ℝ)} {u u' : Bool} {gp gp' : GP} {y y' : Arr ℝ} {a c : ℝ}

/-- **C68.** Multiply times and exposures by `a > 0` and move their origin, multiply values by `c ≠ 0`, and convert the kernel parameters and the noise:
then the log likelihood changes by `- N log |c|`, means are multiplied by `c`, and variances by `c^2`. -/
theorem C68_units (ha : 0 < a) (hc : c ≠ 0) (b : ℝ) (h : Regression kernel X solver κ) (hnew : GP.new kernel X diag mean solver u = .ok gp)
    (hnew' : GP.new (kernel.inUnits a c) (X.inUnits a b) diag' mean' solver u' = .ok gp')
    (hR : ∀ i < X.coords.len, 0 < (GP.noiseOf X.coords.len diag).get i)
    (hR' : ∀ i < X.coords.len, (GP.noiseOf X.coords.len diag').get i = c ^ 2 * (GP.noiseOf X.coords.len diag).get i)
    (hy : y.len = X.coords.len) (hyl : y'.len = X.coords.len) (hy' : ∀ i < X.coords.len, y'.get i = c * y.get i) :
    (∃ l : ℝ, gp.logProbability y = .ok (l : EReal) ∧
      gp'.logProbability y' = .ok ((l - X.coords.len * Real.log |c| : ℝ) : EReal)) ∧
    ∀ lp lp' gpc gpc', gp.condition y = .ok (lp, gpc) → gp'.condition y' = .ok (lp', gpc') →
      (∀ i < X.coords.len, gpc'.mean.get i = c * gpc.mean.get i) ∧
      (∃ v v', gpc.var = some v ∧ gpc'.var = some v' ∧ ∀ i < X.coords.len, v'.get i = c ^ 2 * v.get i) ∧
      ∀ ts : Arr ℝ, ∃ m v m' v', gpc.predict (some (.times ts)) = .ok (m, v) ∧
        gpc'.predict (some (.times (ts.map fun s => a * s + b))) = .ok (m', v') ∧
        ∀ i < ts.len, m'.get i = c * m.get i ∧ v'.get i = c ^ 2 * v.get i := by
  have h' := h.inUnits ha hc b
  have pd := h.gram_pd hR
  have hlen : (X.inUnits a b).coords.len = X.coords.len := by rw [XArg.inUnits_coords]; rfl
  have hpos : ∀ i < (X.inUnits a b).coords.len, 0 < (GP.noiseOf (X.inUnits a b).coords.len diag').get i := by
    rw [hlen]
    intro i hi
    rw [hR' i hi]
    exact mul_pos (by positivity) (hR i hi)
  have ey : (fun i : Fin X.coords.len => y'.get i) = c • fun i : Fin X.coords.len => y.get i := funext fun i => hy' i i.2
  have eG : obsGram (fun r => c ^ 2 * κ (r / a)) (X.coords.map (Coord.inUnits a b)) (GP.noiseOf X.coords.len diag') =
      c ^ 2 • obsGram κ X.coords (GP.noiseOf X.coords.len diag) := obsGram_inUnits ha κ X.coords hR'
  have eC := fun Xs => obsCross_inUnits (c := c) (b := b) ha κ X.coords Xs
  have eM : ∀ Xs : Coord, postMean (obsGram (fun r => c ^ 2 * κ (r / a)) (X.coords.map (Coord.inUnits a b)) (GP.noiseOf X.coords.len diag'))
      (fun j : Fin X.coords.len => y'.get j) (obsCross (fun r => c ^ 2 * κ (r / a)) (Xs.inUnits a b) (X.coords.map (Coord.inUnits a b))) =
      c * postMean (obsGram κ X.coords (GP.noiseOf X.coords.len diag)) (fun j => y.get j) (obsCross κ Xs X.coords) := fun Xs => by
    rw [ey, eG, eC]
    exact postMean_inUnits pd hc _ _
  have eV : ∀ (Xs : Coord) (v : ℝ), postVar (obsGram (fun r => c ^ 2 * κ (r / a)) (X.coords.map (Coord.inUnits a b))
      (GP.noiseOf X.coords.len diag')) (c ^ 2 * v) (obsCross (fun r => c ^ 2 * κ (r / a)) (Xs.inUnits a b) (X.coords.map (Coord.inUnits a b))) =
      c ^ 2 * postVar (obsGram κ X.coords (GP.noiseOf X.coords.len diag)) v (obsCross κ Xs X.coords) := fun Xs v => by
    rw [eG, eC]
    exact postVar_inUnits pd hc _ _
  refine ⟨⟨_, C61_log_probability h hnew hy hR, ?_⟩, fun lp lp' gpc gpc' hcond hcond' => ⟨?_, ?_, fun ts => ?_⟩⟩
  · rw [C61_log_probability h' hnew' (hyl.trans hlen.symm) hpos, XArg.inUnits_coords]
    show Except.ok ((gaussLogDensity (obsGram _ (X.coords.map (Coord.inUnits a b)) (GP.noiseOf X.coords.len diag'))
      (fun i : Fin X.coords.len => y'.get i) : ℝ) : EReal) = _
    rw [ey, eG]
    exact congrArg (fun z : ℝ => Except.ok (z : EReal)) (logDensity_inUnits pd hc _)
  · obtain ⟨-, -, v, hv, -, hm⟩ := C61_condition h hnew hR hcond
    obtain ⟨-, -, v', hv', -, hm'⟩ := C61_condition h' hnew' hpos hcond'
    rw [XArg.inUnits_coords] at hm'
    intro i hi
    rw [(hm i hi).1, (hm' i hi).1]
    exact eM _
  · obtain ⟨-, -, v, hv, -, hm⟩ := C61_condition h hnew hR hcond
    obtain ⟨-, -, v', hv', -, hm'⟩ := C61_condition h' hnew' hpos hcond'
    rw [XArg.inUnits_coords] at hm'
    refine ⟨v, v', hv, hv', fun i hi => ?_⟩
    rw [(hm i hi).2, (hm' i hi).2]
    have := eV (X.coords.get i) (exposureCov κ (X.coords.get i) (X.coords.get i))
    rw [← exposureCov_inUnits (b := b) ha] at this
    exact this
  · obtain ⟨m, v, hp, -, -, hm⟩ := C61_predict h hnew hR hcond ts
    obtain ⟨m', v', hp', -, -, hm'⟩ := C61_predict h' hnew' hpos hcond' (ts.map fun s => a * s + b)
    rw [XArg.inUnits_coords] at hm'
    refine ⟨m, v, m', v', hp, hp', fun i hi => ?_⟩
    rw [(hm i hi).1, (hm i hi).2, (hm' i hi).1, (hm' i hi).2]
    refine ⟨eM (.time (ts.get i)), ?_⟩
    have := eV (.time (ts.get i)) (κ 0)
    simp only [zero_div] at this ⊢
    exact this

end

theorem dataGram_pd_any {k : SSM} (hk : Combos (Leaf SHO.Any) k) (X : Arr Coord) (R : Arr ℝ) (hR : ∀ i < X.len, 0 < R.get i) :
    (dataGram k X R).PosDef := by
  have e : dataGram k X R = (Matrix.of fun i j : Fin X.len => k.evaluate (X.get i) (X.get j)) +
      Matrix.diagonal (fun i : Fin X.len => R.get i) := by
    ext i j
    simp [dataGram, Spec.noisyGram, Matrix.diagonal_apply]
  rw [e]
  exact Matrix.PosDef.posSemidef_add (C26_gram_psd k hk (fun i : Fin X.len => X.get i)) (Matrix.PosDef.diagonal fun i => hR i i.2)

/-- **C68, disagreement.** For the underdamped `SHO` the units of the values matter, because the process noise is compared with the absolute
constant `1e-14`: the log likelihood of two measurements half an oscillation apart, with amplitude 1 and noise variance `1e16`, is not consistent
with the one in units `1e8` times larger. -/
theorem C68_sho_units_matter (name : String) : ∃ l : ℝ,
    (sho 1 1 1 name).logProbability ((twoTimes 0 (Real.pi / SHO.eta 1)).map Coord.sortable) zeroData ⟨2, fun _ => 1e16⟩ = (l : EReal) ∧
    (sho 1 1 1e-8 name).logProbability ((twoTimes 0 (Real.pi / SHO.eta 1)).map Coord.sortable) zeroData unitNoise ≠
      ((l - 2 * Real.log |1e-8| : ℝ) : EReal) := by
  have hpos : ∀ i < (twoTimes 0 (Real.pi / SHO.eta 1)).len, (0 : ℝ) < (⟨2, fun _ => 1e16⟩ : Arr ℝ).get i := fun i _ => by
    show (0 : ℝ) < 1e16
    norm_num
  have h1 := (C01_C02_C03_sho_underdamped_partial 1 1 1 name one_pos (by norm_num) SHO.not_critical_one one_ne_zero
    (twoTimes 0 (Real.pi / SHO.eta 1)) zeroData ⟨2, fun _ => 1e16⟩ (twoTimes_sorted (div_nonneg Real.pi_pos.le (Real.sqrt_nonneg _))) hpos
    (fun a ha i j => by
      have ha' : a + 1 < 2 := ha
      obtain rfl : a = 0 := by omega
      simpa [twoTimes, Coord.sortable] using SHO.half_oscillation i j)).1
  have h2 := C01_sho_truncated_likelihood_wrong 1 1 1e-8 name one_pos (by norm_num) SHO.not_critical_one (by norm_num) (by norm_num) (by norm_num)
  rw [mul_one] at h2
  refine ⟨_, h1, fun h => h2 (h.trans ?_)⟩
  have hg : SHO.Genuine 1 := Or.inr SHO.not_critical_one
  have e : dataGram (sho 1 1 1e-8 name) (twoTimes 0 (Real.pi / SHO.eta 1)) unitNoise =
      ((1e-8 : ℝ) ^ 2) • dataGram (sho 1 1 1 name) (twoTimes 0 (Real.pi / SHO.eta 1)) ⟨2, fun _ => 1e16⟩ := by
    ext i j
    show (sho 1 1 1e-8 name).evaluate _ _ + (if i = j then (1 : ℝ) else 0) = (1e-8 : ℝ) ^ 2 * ((sho 1 1 1 name).evaluate _ _ + if i = j then 1e16 else 0)
    rw [C24_sho 1 1 1e-8 name one_pos one_pos hg, C24_sho 1 1 1 name one_pos one_pos hg]
    have := covSHO_inUnits (a := 1) (c := 1e-8) 1 1 1
    simp only [div_one, mul_one] at this
    rw [this, mul_add]
    congr 1
    split_ifs <;> norm_num
  have hy : (fun i : Fin (twoTimes 0 (Real.pi / SHO.eta 1)).len => zeroData.get i) =
      (1e-8 : ℝ) • fun i : Fin (twoTimes 0 (Real.pi / SHO.eta 1)).len => zeroData.get i := by
    funext i
    show (0 : ℝ) = 1e-8 * 0
    rw [mul_zero]
  rw [e]
  conv_rhs => rw [hy]
  refine congrArg (fun z : ℝ => (z : EReal)) ?_
  exact (logDensity_inUnits (c := 1e-8) (dataGram_pd_any (.leaf (.sho one_pos one_pos trivial)) _ _ hpos) (by norm_num) _).symm

section examples

/-- from days to seconds and from a unit of the values to a hundredth of it, for a product kernel plus an exponential -/
example : Kern.inUnits 86400 100 (.sum (.prod (.matern32 2 3 "a") (.cosine 5 1 "b")) (.exp 7 1 "c")) =
    .sum (.prod (.matern32 (86400 * 2) (100 * 3) "a") (.cosine (86400 * 5) (1 * 1) "b")) (.exp (86400 * 7) (100 * 1) "c") := rfl

/-- C68 applies -/
example (y : Arr ℝ) (hy : y.len = 2) : ∃ gp gp', GP.new (.exp 1 1 "a") (.times tPair) (some (.inl 1)) none none false = .ok gp ∧
    GP.new (.exp (86400 * 1) (100 * 1) "a") (.times (tPair.map fun s => 86400 * s + 3)) (some (.inl 10000)) none none false = .ok gp' ∧
    ∃ l : ℝ, gp.logProbability y = .ok (l : EReal) ∧
      gp'.logProbability (y.map fun z => 100 * z) = .ok ((l - (2 : ℕ) * Real.log |100| : ℝ) : EReal) := by
  obtain ⟨gp, lp, gpc, h, hc⟩ := exp_gp tPair (by show (2 : ℕ) ≠ 1; decide) (some (.inl 1)) y
  obtain ⟨gp', h'⟩ := (C01_constructor (kernel := .exp (86400 * 1) (100 * 1) "a") (.exp (by norm_num) (by norm_num)) (.inl rfl)
    (tPair.map fun s => 86400 * s + 3) (some (.inl 10000)) none).1
  refine ⟨gp, gp', h, h', ?_⟩
  exact (C68_units (a := 86400) (c := 100) (y' := y.map fun z => 100 * z) (by norm_num) (by norm_num) 3 (exp_regression tPair_sorted (by show 0 < 2; decide)) h h'
    (fun _ _ => one_pos) (fun i _ => by show (10000 : ℝ) = 100 ^ 2 * 1; norm_num) hy hy fun i _ => rfl).1

end examples

end Verif
