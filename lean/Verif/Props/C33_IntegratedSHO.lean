import Verif.Props.C31_VanLoan
import Verif.Props.C20_Transition

/-!
# C33: the closed forms of `IntegratedSHO`; C32 and C21 for the exported integrated kernels
-/

set_option linter.unusedSectionVars false

namespace Verif
open Matrix
namespace IntegratedSHO
variable {w q : ℝ}

theorem phibarUnder_deriv (hw : w ≠ 0) (hq : 1 / 2 < q) (t : ℝ) :
    MDeriv (phibarUnder w q) (SHO.Aunder w q t) t := by
  have hn0 := (SHO.eta_pos_under hq).ne'
  have hq0 : q ≠ 0 := by positivity
  have hab : (-0.5 * w / q) ^ 2 + (SHO.eta q * w) ^ 2 ≠ 0 := by positivity
  show MDeriv (fun s => phibarUnder w q s) _ t
  have e1 : ∀ s, Real.exp (-0.5 * w * s / q) = Real.exp ((-0.5 * w / q) * s) := fun s => by congr 1; ring
  simp only [phibarUnder, SHO.Aunder, smul2, e1]
  set n := SHO.eta q
  have e2 : n * w * t = (n * w) * t := rfl
  set a := -0.5 * w / q with ha
  set b := n * w with hb
  set A := 1 / (2 * n * q) with hA
  set E := Real.exp (a * t) with hE
  set co := Real.cos (b * t) with hco
  set si := Real.sin (b * t) with hsi
  have hA' : ∀ x : ℝ, x / (2 * n * q) = A * x := fun x => by rw [hA]; ring
  simp only [hA']
  refine mderiv2 ?_ ?_ ?_ ?_
  · refine HasDerivAt.cast (((hasDerivAt_exp_trig a b (a - A * b) (b + A * a) t (p := fun s => a * Real.cos (b * s) + b * Real.sin (b * s) + A * (a * Real.sin (b * s) - b * Real.cos (b * s))) (fun s => by ring) rfl).sub_const (a - A * b)).const_mul (1 / (a ^ 2 + b ^ 2))) ?_
    rw [← hE, ← hco, ← hsi]; field_simp; ring
  · refine HasDerivAt.cast ((((hasDerivAt_exp_trig a b (-b) a t (p := fun s => (a * Real.sin (b * s) - b * Real.cos (b * s))) (fun s => by ring) rfl).add_const b).const_mul (1 / (n * w))).const_mul (1 / (a ^ 2 + b ^ 2))) ?_ |>.congr_of_eventuallyEq (.of_forall fun s => by ring)
    rw [← hE, ← hco, ← hsi, hb]; field_simp; ring
  · refine HasDerivAt.cast ((((hasDerivAt_exp_trig a b (-b) a t (p := fun s => (a * Real.sin (b * s) - b * Real.cos (b * s))) (fun s => by ring) rfl).add_const b).const_mul (-w / n)).const_mul (1 / (a ^ 2 + b ^ 2))) ?_ |>.congr_of_eventuallyEq (.of_forall fun s => by ring)
    rw [← hE, ← hco, ← hsi]; field_simp; ring
  · refine HasDerivAt.cast (((hasDerivAt_exp_trig a b (a + A * b) (b - A * a) t (p := fun s => a * Real.cos (b * s) + b * Real.sin (b * s) - A * (a * Real.sin (b * s) - b * Real.cos (b * s))) (fun s => by ring) rfl).sub_const (a + A * b)).const_mul (1 / (a ^ 2 + b ^ 2))) ?_
    rw [← hE, ← hco, ← hsi]; field_simp; ring

theorem phibarUnder_zero : phibarUnder w q 0 = 0 := by
  simp only [phibarUnder, smul2, mul_zero, Real.exp_zero, Real.sin_zero, Real.cos_zero]
  ext i j
  fin_cases i <;> fin_cases j <;> simp

theorem phibarUnder_eq (hw : w ≠ 0) (hq : 1 / 2 < q) (t : ℝ) : phibarUnder w q t = PhibarFromVanLoan (SHO.F w q) t := by
  refine eq_of_MDeriv (fun t => phibarUnder_deriv hw hq t) (fun t => (phibar_deriv _ t).congr (SHO.Aunder_expm hw hq t).symm) ?_ t
  rw [phibarUnder_zero, phibar_zero]


theorem exp_half (w q t : ℝ) : Real.exp (-0.5 * w * t / q) = Real.exp ((-0.5 * w / q) * t) := by congr 1; ring

/-- abbreviation: `u = 1 / (2 q)`; then `η² = 1 - u²` -/
theorem u_sq (hq : 1 / 2 < q) : (1 / (2 * q)) ^ 2 = 1 - SHO.eta q ^ 2 := by
  have hq0 : q ≠ 0 := by positivity
  rw [SHO.eta_sq_under hq]; field_simp; ring

theorem iQ12_eq (sigma : ℝ) (name : String) (hw' : 0 < w) (hq : 1 / 2 < q) (t : ℝ) (i : Fin 2) :
    sigma ^ 2 * iQ12 w q t i = ((vanLoan (sho w q sigma name).F (sho w q sigma name).L (sho w q sigma name).Qc t).F3ᵀ *
      (vanLoan (sho w q sigma name).F (sho w q sigma name).L (sho w q sigma name).Qc t).H2) i (0 : Fin 2) := by
  have hl : (sho w q sigma name).Lyapunov := (Leaf.sho (shoOk := SHO.Any) (sigma := sigma) (name := name) hw' (by linarith) trivial).lyapunov
  have hw := hw'.ne'
  rw [vanLoan_M hl]
  show _ = (PhibarFromVanLoan (SHO.F w q) t * SHO.Pinf w sigma - NormedSpace.exp (t • SHO.F w q) * SHO.Pinf w sigma *
    (PhibarFromVanLoan (SHO.F w q) t)ᵀ) i 0
  rw [← phibarUnder_eq hw hq, ← SHO.Aunder_expm hw hq]
  have hn0 := (SHO.eta_pos_under hq).ne'
  have hq0 : q ≠ 0 := by positivity
  have hu := u_sq hq
  have hab : (-0.5 * w / q) ^ 2 + (SHO.eta q * w) ^ 2 = w ^ 2 := by
    rw [mul_pow, ← sub_eq_zero, SHO.eta_sq_under hq]; field_simp; ring
  have h2 : Real.exp (2 * (-0.5 * w / q * t)) = Real.exp (-0.5 * w / q * t) ^ 2 := by rw [two_mul, Real.exp_add, sq]
  have h3 := Real.sin_sq_add_cos_sq (SHO.eta q * w * t)
  simp only [iQ12, phibarUnder, SHO.Aunder, SHO.Pinf, smul2, exp_half, hab, h2, Real.sin_two_mul]
  simp only [mul2, tr2, sub2]
  set n := SHO.eta q
  set E := Real.exp (-0.5 * w / q * t)
  set c := Real.cos (n * w * t)
  set s := Real.sin (n * w * t)
  have hq' : q = 1 / (2 * (1 / (2 * q))) := by field_simp
  have hu0 : 1 / (2 * q) ≠ 0 := by positivity
  clear_value n E c s
  clear hl hab h2
  generalize 1 / (2 * q) = u at hu hq' hu0
  subst hq'
  clear hq hq0 hw'
  have h05 : (0.5 : ℝ) = 1 / 2 := by norm_num
  rw [h05]
  fin_cases i
  · simp
    field_simp
    grind
  · simp
    field_simp
    grind

theorem iQ22_deriv (hw : 0 < w) (hq : 1 / 2 < q) (t : ℝ) :
    HasDerivAt (iQ22 w q) (2 * w ^ 3 / q * (phibarUnder w q t 0 1) ^ 2) t := by
  have hn0 := (SHO.eta_pos_under hq).ne'
  have hq0 : q ≠ 0 := by positivity
  have hu := u_sq hq
  have hab : (-0.5 * w / q) ^ 2 + (SHO.eta q * w) ^ 2 = w ^ 2 := by
    rw [mul_pow, ← sub_eq_zero, SHO.eta_sq_under hq]; field_simp; ring
  have h3 := Real.sin_sq_add_cos_sq (SHO.eta q * w * t)
  show HasDerivAt (fun s => iQ22 w q s) _ t
  simp only [iQ22]
  set n := SHO.eta q with hn
  set a := -0.5 * w / q with ha
  set b := n * w with hb
  set A := 1 / (2 * n * q) with hA
  have d1 : HasDerivAt (fun s => 8 * q * w * s + 4 * q ^ 2 - 12) (8 * q * w) t := by
    simpa using (((hasDerivAt_id t).const_mul (8 * q * w)).add_const (4 * q ^ 2)).sub_const 12
  have d2 := hasDerivAt_exp_trig (2 * a) (2 * b) 1 0 t (p := fun s => Real.cos (2 * b * s)) (fun s => by ring) rfl
  have d3 := hasDerivAt_exp_mul (2 * a) t
  have d4 := hasDerivAt_exp_trig a b 1 ((1 - 2 * q ^ 2) * A) t (p := fun s => Real.cos (b * s) + (1 - 2 * q ^ 2) * A * Real.sin (b * s)) (fun s => by ring) rfl
  have d5 := hasDerivAt_exp_trig (2 * a) (2 * b) (-3) ((1 - 3 * A ^ 2) / A) t (p := fun s => (1 - 3 * A ^ 2) / A * Real.sin (2 * b * s) - 3 * Real.cos (2 * b * s)) (fun s => by ring) rfl
  have D := ((d1.add ((d2.sub (d3.const_mul (16 * q ^ 4))).const_mul (A ^ 2))).add ((d4.const_mul 16).add d5)).const_mul (1 / (4 * q ^ 2 * w ^ 2))
  refine (D.congr_of_eventuallyEq (.of_forall fun s => ?_)).congr_deriv ?_
  · simp only [Pi.add_apply, Pi.sub_apply]
    have e1 : 2 * a * s = 2 * (a * s) := by ring
    have e2 : 2 * b * s = 2 * (b * s) := by ring
    rw [e1, e2]
    ring
  · simp only [phibarUnder, smul2]
    rw [← hn, ← ha, ← hb, hab]
    have e1 : Real.exp (2 * a * t) = Real.exp (a * t) ^ 2 := by rw [sq, ← Real.exp_add]; congr 1; ring
    have e2 : Real.cos (2 * b * t) = 2 * Real.cos (b * t) ^ 2 - 1 := by rw [mul_assoc, Real.cos_two_mul]
    have e3 : Real.sin (2 * b * t) = 2 * Real.sin (b * t) * Real.cos (b * t) := by rw [mul_assoc, Real.sin_two_mul]
    rw [e1, e2, e3]
    have hbb : n * w * t = b * t := rfl
    set E := Real.exp (a * t)
    set c := Real.cos (b * t)
    set s := Real.sin (b * t)
    have hq' : q = 1 / (2 * (1 / (2 * q))) := by field_simp
    have hu0 : 1 / (2 * q) ≠ 0 := by positivity
    have hA2 : A = 1 / (2 * q) / n := by rw [hA]; field_simp
    have ha2 : a = -(w * (1 / (2 * q))) := by rw [ha]; ring
    clear d1 d2 d3 d4 d5 D e1 e2 e3
    clear_value c s E A a
    clear_value b
    clear_value n
    generalize 1 / (2 * q) = u at hu hq' hu0 hA2 ha2
    subst hq'
    subst hA2
    subst ha2
    subst hb
    have hw0 := hw.ne'
    clear hq hq0 hw ha hA hab hbb
    simp
    field_simp
    grind

theorem defaultQ22_eq (base : SSM) (first : base.n) (t1 t2 : ℝ) : defaultQ22 base first t1 t2 =
    ((vanLoan base.F base.L base.Qc (t2 - t1)).F3ᵀ * (vanLoan base.F base.L base.Qc (t2 - t1)).K1 +
      ((vanLoan base.F base.L base.Qc (t2 - t1)).F3ᵀ * (vanLoan base.F base.L base.Qc (t2 - t1)).K1)ᵀ) first first := rfl

theorem iQ22_zero (hq : 1 / 2 < q) : iQ22 w q 0 = 0 := by
  have hn0 := (SHO.eta_pos_under hq).ne'
  have hq0 : q ≠ 0 := by positivity
  have hn := SHO.eta_sq_under hq
  by_cases hw : w = 0
  · simp [iQ22, hw]
  have hu := u_sq hq
  simp only [iQ22, mul_zero, Real.exp_zero, Real.cos_zero, Real.sin_zero]
  set n := SHO.eta q
  clear_value n
  field_simp
  field_simp at hu
  grind

theorem iQ22_integral (hw : 0 < w) (hq : 1 / 2 < q) (t : ℝ) :
    iQ22 w q t = ∫ s in (0 : ℝ)..t, 2 * w ^ 3 / q * (phibarUnder w q s 0 1) ^ 2 := by
  have hc : Continuous fun s => phibarUnder w q s 0 1 :=
    MDeriv.continuous (fun t => phibarUnder_deriv hw.ne' hq t) 0 1
  rw [intervalIntegral.integral_eq_sub_of_hasDerivAt (fun s _ => iQ22_deriv hw hq s)
    (Continuous.intervalIntegrable (continuous_const.mul (hc.pow 2)) _ _), iQ22_zero hq, sub_zero]

theorem iQ22_nonneg (hw : 0 < w) (hq : 1 / 2 < q) {t : ℝ} (ht : 0 ≤ t) : 0 ≤ iQ22 w q t := by
  rw [iQ22_integral hw hq]
  have hq0 : 0 < q := by linarith
  exact intervalIntegral.integral_nonneg ht fun s _ => by positivity

theorem iQ22_eq (sigma : ℝ) (name : String) (hw : 0 < w) (hq : 1 / 2 < q) (t : ℝ) :
    sigma ^ 2 * iQ22 w q t = defaultQ22 (sho w q sigma name) (0 : Fin 2) 0 t := by
  have hqc : (sho w q sigma name).Qcᵀ = (sho w q sigma name).Qc := by
    ext i j; fin_cases i; fin_cases j; rfl
  refine Eq.trans ?_ (C31_vanLoan_W _ _ _ hqc (t - 0) (0 : Fin 2) (0 : Fin 2)).symm
  rw [iQ22_integral hw hq, sub_zero, ← intervalIntegral.integral_const_mul]
  refine intervalIntegral.integral_congr fun s _ => ?_
  show sigma ^ 2 * (2 * w ^ 3 / q * (phibarUnder w q s 0 1) ^ 2) = (PhibarFromVanLoan (SHO.F w q) s *
    ((!![0; 1] : Matrix (Fin 2) (Fin 1) ℝ) * (!![2 * w ^ 3 * sigma ^ 2 / q] : Matrix (Fin 1) (Fin 1) ℝ) *
      (!![0; 1] : Matrix (Fin 2) (Fin 1) ℝ)ᵀ) * (PhibarFromVanLoan (SHO.F w q) s)ᵀ : Matrix (Fin 2) (Fin 2) ℝ) 0 0
  rw [← phibarUnder_eq hw.ne' hq, noise2]
  simp [Matrix.mul_apply, Fin.sum_univ_two]
  ring

theorem trunc_close (x : ℝ) : |trunc x - x| < 1e-14 := by
  unfold trunc
  split_ifs with h
  · rw [zero_sub, abs_neg]; exact h
  · rw [sub_self, abs_zero]; norm_num

end IntegratedSHO

theorem SHO.half_lt_of {q : ℝ} (h : q > 0.5) : 1 / 2 < q := by norm_num at h ⊢; linarith

/-- **C33**: the integrated transition matrix of `IntegratedSHO` is the generic one, in every damping regime and for every lag -/
theorem C33_phibar (w q t1 t2 : ℝ) (hw : 0 < w) :
    IntegratedSHO.phibar w q t1 t2 = PhibarFromVanLoan (SHO.F w q) (t2 - t1) := by
  unfold IntegratedSHO.phibar
  split_ifs with h1 h2
  · rfl
  · exact IntegratedSHO.phibarUnder_eq hw.ne' (SHO.half_lt_of h2) _
  · rfl

/-- **C33**: `Qaug12` of `IntegratedSHO` is within the code's cut of the generic one -/
theorem C33_q12 (w q sigma t1 t2 : ℝ) (name : String) (hw : 0 < w) (i : Fin 2) :
    |IntegratedSHO.q12 w q sigma t1 t2 i - defaultQ12 (sho w q sigma name) (0 : Fin 2) t1 t2 i| < 1e-14 := by
  unfold IntegratedSHO.q12
  split_ifs with h
  · have e : sigma ^ 2 * IntegratedSHO.iQ12 w q (t2 - t1) i = defaultQ12 (sho w q sigma name) (0 : Fin 2) t1 t2 i :=
      IntegratedSHO.iQ12_eq sigma name hw (SHO.half_lt_of h.2) (t2 - t1) i
    rw [e]
    exact IntegratedSHO.trunc_close _
  · have : defaultQ12 (sho w q sigma) (0 : Fin 2) 0 (t2 - t1) i = defaultQ12 (sho w q sigma name) (0 : Fin 2) t1 t2 i := by
      unfold defaultQ12
      rw [sub_zero]
      rfl
    rw [this, sub_self, abs_zero]
    norm_num

/-- **C33**: `Qaug22` of `IntegratedSHO` is within the code's cut of the generic one, for non-negative lags -/
theorem C33_q22 (w q sigma t1 t2 : ℝ) (name : String) (hw : 0 < w) (ht : t1 ≤ t2) :
    |IntegratedSHO.q22 w q sigma t1 t2 - defaultQ22 (sho w q sigma name) (0 : Fin 2) t1 t2| < 1e-14 := by
  have e0 : ∀ name', defaultQ22 (sho w q sigma name') (0 : Fin 2) 0 (t2 - t1) = defaultQ22 (sho w q sigma name) (0 : Fin 2) t1 t2 := by
    intro name'
    unfold defaultQ22
    rw [sub_zero]
    rfl
  unfold IntegratedSHO.q22
  split_ifs with h
  · rw [max_eq_left (IntegratedSHO.iQ22_nonneg hw (SHO.half_lt_of h.2) (sub_nonneg.2 ht)),
      IntegratedSHO.iQ22_eq sigma name hw (SHO.half_lt_of h.2), e0]
    exact IntegratedSHO.trunc_close _
  · rw [e0, sub_self, abs_zero]
    norm_num

/-- the closed form at work: an underdamped oscillator, lag `1` -/
example : IntegratedSHO.phibar 1 2 0 1 0 1 = ∫ s in (0 : ℝ)..1, (NormedSpace.exp (s • SHO.F 1 2)) 0 1 := by
  rw [C33_phibar 1 2 0 1 one_pos, C31_phibar, sub_zero]

/-! ## the exported integrated kernels -/

/-- the exported integrated kernels, with valid parameters and any number of instruments `m + 1` -/
inductive IntLeaf (shoOk : ℝ → Prop) : SSM → Prop
  | exp {scale sigma : ℝ} {m : ℕ} {name : String} (hs : 0 < scale) : IntLeaf shoOk (integratedExp scale sigma m name)
  | matern32 {scale sigma : ℝ} {m : ℕ} {name : String} (hs : 0 < scale) : IntLeaf shoOk (integratedMatern32 scale sigma m name)
  | matern52 {scale sigma : ℝ} {m : ℕ} {name : String} (hs : 0 < scale) : IntLeaf shoOk (integratedMatern52 scale sigma m name)
  | cosine {scale sigma : ℝ} {m : ℕ} {name : String} (hs : 0 < scale) : IntLeaf shoOk (integratedCosine scale sigma m name)
  | sho {omega quality sigma : ℝ} {m : ℕ} {name : String} (hw : 0 < omega) (hq : 0 < quality) (ok : shoOk quality) :
      IntLeaf shoOk (integratedSHO omega quality sigma m name)

theorem transpose_one_by_one (M : Matrix (Fin 1) (Fin 1) ℝ) : Mᵀ = M := by
  ext i j; fin_cases i; fin_cases j; rfl

theorem Leaf.symm {k : SSM} (h : Leaf SHO.Any k) : k.Pinfᵀ = k.Pinf := by
  obtain ⟨G, hG⟩ := h.covModel
  exact psd_symm hG.P_psd

theorem expKernel_baseOk {scale sigma : ℝ} {name : String} (hs : 0 < scale) : (expKernel scale sigma name).BaseOk :=
  ⟨(Leaf.exp hs).transitionIsExp, (Leaf.exp hs).noiseIsStationary, (Leaf.exp hs).lyapunov, (Leaf.exp hs).symm, transpose_one_by_one _⟩
theorem matern32_baseOk {scale sigma : ℝ} {name : String} (hs : 0 < scale) : (matern32 scale sigma name).BaseOk :=
  ⟨(Leaf.matern32 hs).transitionIsExp, (Leaf.matern32 hs).noiseIsStationary, (Leaf.matern32 hs).lyapunov, (Leaf.matern32 hs).symm,
    transpose_one_by_one _⟩
theorem matern52_baseOk {scale sigma : ℝ} {name : String} (hs : 0 < scale) : (matern52 scale sigma name).BaseOk :=
  ⟨(Leaf.matern52 hs).transitionIsExp, (Leaf.matern52 hs).noiseIsStationary, (Leaf.matern52 hs).lyapunov, (Leaf.matern52 hs).symm,
    transpose_one_by_one _⟩
theorem cosine_baseOk {scale sigma : ℝ} {name : String} (hs : 0 < scale) : (cosine scale sigma name).BaseOk :=
  ⟨(Leaf.cosine hs).transitionIsExp, (Leaf.cosine hs).noiseIsStationary, (Leaf.cosine hs).lyapunov, (Leaf.cosine hs).symm,
    transpose_one_by_one _⟩

/-- the process noise is the accumulated noise of the stochastic differential equation `dx = F x dt + L dw` -/
def SSM.NoiseIsIntegral (k : SSM) : Prop := ∀ X1 X2 : Coord, ∀ i j, k.Q X1 X2 i j =
  ∫ s in (0 : ℝ)..(X2.sortable - X1.sortable),
    (NormedSpace.exp (s • k.F) * (k.L * k.Qc * k.Lᵀ) * (NormedSpace.exp (s • k.F))ᵀ) i j

/-- the same up to `eps` in every entry, for non-negative lags -/
def SSM.NoiseIsIntegralUpTo (k : SSM) (eps : ℝ) : Prop := ∀ X1 X2 : Coord, X1.sortable ≤ X2.sortable → ∀ i j,
  |k.Q X1 X2 i j - ∫ s in (0 : ℝ)..(X2.sortable - X1.sortable),
    (NormedSpace.exp (s • k.F) * (k.L * k.Qc * k.Lᵀ) * (NormedSpace.exp (s • k.F))ᵀ) i j| ≤ eps

theorem integratedSHO_A (w q sigma : ℝ) (m : ℕ) (name : String) (hw : 0 < w) :
    (integratedSHO w q sigma m name).A = (integratedDefault name m (sho w q sigma) (0 : Fin 2)).A := by
  funext X1 X2
  show Matrix.fromBlocks _ _ (Matrix.of fun _ j => IntegratedSHO.phibar w q X1.sortable X2.sortable 0 j) _ = _
  rw [C33_phibar w q _ _ hw]
  rfl

/-- **C32, C20**: for every exported integrated kernel the augmented transition matrix is the exponential of the augmented design
matrix (`SHO`: `quality` exactly `1/2` or outside the tolerance window) -/
theorem C32_shipped_transition (k : SSM) (hk : IntLeaf SHO.Genuine k) : k.TransitionIsExp := by
  cases hk with
  | exp hs => exact C32_transition _ _ _ (expKernel_baseOk hs).exp
  | matern32 hs => exact C32_transition _ _ _ (matern32_baseOk hs).exp
  | matern52 hs => exact C32_transition _ _ _ (matern52_baseOk hs).exp
  | cosine hs => exact C32_transition _ _ _ (cosine_baseOk hs).exp
  | @sho w q sigma m name hw hq ok =>
    intro X1 X2
    rw [integratedSHO_A w q sigma m name hw]
    exact C32_transition (base := sho w q sigma) (0 : Fin 2) name m (Leaf.sho hw hq ok).transitionIsExp X1 X2

/-- **C32**: for every exported integrated kernel except the underdamped `SHO`, the augmented process noise is the integral -/
theorem C32_shipped_noise (k : SSM) (hk : IntLeaf (fun q => SHO.Genuine q ∧ SHO.NotUnderdamped q) k) : k.NoiseIsIntegral := by
  cases hk with
  | exp hs => exact C32_process_noise _ _ _ (expKernel_baseOk hs)
  | matern32 hs => exact C32_process_noise _ _ _ (matern32_baseOk hs)
  | matern52 hs => exact C32_process_noise _ _ _ (matern52_baseOk hs)
  | cosine hs => exact C32_process_noise _ _ _ (cosine_baseOk hs)
  | @sho w q sigma m name hw hq ok =>
    intro X1 X2 i j
    have hb : (sho w q sigma).BaseOk := ⟨(Leaf.sho hw hq ok.1).transitionIsExp, (Leaf.sho hw hq ok.2).noiseIsStationary,
      (Leaf.sho hw hq trivial).lyapunov, (Leaf.sho hw hq trivial).symm, transpose_one_by_one _⟩
    have hu : ¬ (¬ SHO.isCritical q ∧ q > 0.5) := by
      rintro ⟨h1, h2⟩
      exact ok.2.elim h1 fun h => absurd (SHO.half_lt_of h2) (not_lt.2 h)
    have e : (integratedSHO w q sigma m name).Q X1 X2 = (integratedDefault name m (sho w q sigma) (0 : Fin 2)).Q X1 X2 := by
      show Matrix.fromBlocks _ (Matrix.of fun a _ => IntegratedSHO.q12 w q sigma X1.sortable X2.sortable a)
        (Matrix.of fun _ a => IntegratedSHO.q12 w q sigma X1.sortable X2.sortable a)
        (Matrix.of fun _ _ => IntegratedSHO.q22 w q sigma X1.sortable X2.sortable) = _
      unfold IntegratedSHO.q12 IntegratedSHO.q22
      simp only [if_neg hu]
      unfold defaultQ12 defaultQ22
      rw [sub_zero]
      rfl
    rw [e]
    exact C32_process_noise (base := sho w q sigma) (0 : Fin 2) name m hb X1 X2 i j

/-- **C32**: for the underdamped `IntegratedSHO` every entry is within the code's cut `1e-14` of the integral -/
theorem C32_sho_noise (w q sigma : ℝ) (m : ℕ) (name : String) (hw : 0 < w) (hq : 0 < q) (ok : SHO.Genuine q) :
    (integratedSHO w q sigma m name).NoiseIsIntegralUpTo 1e-14 := by
  intro X1 X2 hle i j
  by_cases hu : SHO.NotUnderdamped q
  · rw [C32_shipped_noise _ (IntLeaf.sho hw hq ⟨ok, hu⟩) X1 X2 i j]
    norm_num
  have hc : ¬ SHO.isCritical q := fun h => hu (Or.inl h)
  have hq2 : 1 / 2 < q := not_le.1 fun h => hu (Or.inr h)
  have key := augNoise_integral (base := sho w q sigma) (0 : Fin 2) name m (transpose_one_by_one _)
    (X2.sortable - X1.sortable) i j
  refine (congrArg (fun x => |(integratedSHO w q sigma m name).Q X1 X2 i j - x|) key.symm).trans_le (le_of_lt ?_)
  have hQ := QFromVanLoan_stationary (Leaf.sho (shoOk := SHO.Any) (sigma := sigma) (name := "SHO") hw hq trivial).lyapunov
    (X2.sortable - X1.sortable)
  have e12 : ∀ a : Fin 2, defaultQ12 (sho w q sigma) (0 : Fin 2) 0 (X2.sortable - X1.sortable) a =
      defaultQ12 (sho w q sigma) (0 : Fin 2) X1.sortable X2.sortable a := fun a => by unfold defaultQ12; rw [sub_zero]
  have e22 : defaultQ22 (sho w q sigma) (0 : Fin 2) 0 (X2.sortable - X1.sortable) =
      defaultQ22 (sho w q sigma) (0 : Fin 2) X1.sortable X2.sortable := by unfold defaultQ22; rw [sub_zero]
  rcases i with i | i <;> rcases j with j | j
  · have h1 := C22_sho_underdamped_partial w q sigma "SHO" hw hq2 hc (.time 0) (.time (X2.sortable - X1.sortable)) i j
    have hA : (sho w q sigma).A (.time 0) (.time (X2.sortable - X1.sortable)) = NormedSpace.exp ((X2.sortable - X1.sortable) • (sho w q sigma).F) := by
      rw [(Leaf.sho (sigma := sigma) (name := "SHO") hw hq ok).transitionIsExp]
      show NormedSpace.exp ((X2.sortable - X1.sortable - 0) • _) = _
      rw [sub_zero]
    rw [hA, ← hQ] at h1
    exact h1
  · exact lt_of_eq_of_lt (congrArg (fun x => |IntegratedSHO.q12 w q sigma X1.sortable X2.sortable i - x|) (e12 i))
      (C33_q12 w q sigma X1.sortable X2.sortable "SHO" hw i)
  · exact lt_of_eq_of_lt (congrArg (fun x => |IntegratedSHO.q12 w q sigma X1.sortable X2.sortable j - x|) (e12 j))
      (C33_q12 w q sigma X1.sortable X2.sortable "SHO" hw j)
  · exact lt_of_eq_of_lt (congrArg (fun x => |IntegratedSHO.q22 w q sigma X1.sortable X2.sortable - x|) e22)
      (C33_q22 w q sigma X1.sortable X2.sortable "SHO" hw hle)

example : (integratedMatern32 2 3 1).NoiseIsIntegral := C32_shipped_noise _ (.matern32 two_pos)

/-- **C21**: transitions compose, for every exported integrated kernel and every sum, product or scalar multiple of exported kernels,
integrated or not (`SHO`: outside the tolerance window, or `quality = 1/2`) -/
theorem C21_integrated_composes (k : SSM) (hk : Combos (fun k => Leaf SHO.Genuine k ∨ IntLeaf SHO.Genuine k) k) : k.TransitionComposes := by
  refine SSM.TransitionIsExp.composes ?_
  induction hk with
  | leaf h => exact h.elim (fun h => h.transitionIsExp) (C32_shipped_transition _)
  | sum _ _ h1 h2 => exact h1.sum h2
  | prod _ _ h1 h2 => exact h1.prod h2
  | scale _ _ h => exact h

example : ((integratedSHO 1 3 2 1).sum (matern32 1 1)).TransitionComposes :=
  C21_integrated_composes _ (.sum (.leaf (.inr (.sho one_pos (by norm_num) (.inr (by unfold SHO.isCritical; norm_num [abs_of_pos])))))
    (.leaf (.inl (.matern32 one_pos))))

/-- **C21, disagreement**: for `quality` in the tolerance window but different from `1/2` the transitions of `IntegratedSHO` do not
compose: the base block is the critically damped one, the integrated block is not. -/
theorem C21_integrated_sho_window (w q sigma : ℝ) (m : ℕ) (name : String) (hw : 0 < w) (hc : SHO.isCritical q) (hq : q ≠ 1 / 2) :
    ¬ (integratedSHO w q sigma m name).TransitionComposes := by
  intro h
  have key : ∀ s t : ℝ, ∀ j, PhibarFromVanLoan (SHO.F w q) (s + t) 0 j =
      (PhibarFromVanLoan (SHO.F w q) t * NormedSpace.exp (s • SHO.F w 0.5) + PhibarFromVanLoan (SHO.F w q) s) 0 j := by
    intro s t j
    have e := congrFun₂ (h.comp (.time 0) (.time s) (.time (s + t))) (Sum.inr 0) (Sum.inl j)
    have hl : (integratedSHO w q sigma m name).A (.time 0) (.time (s + t)) (Sum.inr 0) (Sum.inl j) =
        PhibarFromVanLoan (SHO.F w q) (s + t) 0 j := by
      show IntegratedSHO.phibar w q 0 (s + t) 0 j = _
      rw [C33_phibar w q _ _ hw, sub_zero]
    have hr : ((integratedSHO w q sigma m name).A (.time s) (.time (s + t)) * (integratedSHO w q sigma m name).A (.time 0) (.time s))
        (Sum.inr 0) (Sum.inl j) = (PhibarFromVanLoan (SHO.F w q) t * SHO.A w q s + PhibarFromVanLoan (SHO.F w q) s) 0 j := by
      have e2 := congrFun₂ (Matrix.fromBlocks_multiply (SHO.A w q (s + t - s)) 0
        (Matrix.of fun (_ : Fin (m + 1)) j => IntegratedSHO.phibar w q s (s + t) 0 j)
        (1 : Matrix (Fin (m + 1)) (Fin (m + 1)) ℝ) (SHO.A w q (s - 0)) 0
        (Matrix.of fun (_ : Fin (m + 1)) j => IntegratedSHO.phibar w q 0 s 0 j) (1 : Matrix (Fin (m + 1)) (Fin (m + 1)) ℝ)) (Sum.inr 0) (Sum.inl j)
      refine e2.trans ?_
      rw [C33_phibar w q _ _ hw, C33_phibar w q _ _ hw, add_sub_cancel_left, sub_zero, Matrix.fromBlocks_apply₂₁, Matrix.one_mul]
      rfl
    have hA : SHO.A w q s = NormedSpace.exp (s • SHO.F w 0.5) := by
      unfold SHO.A
      rw [if_pos hc, SHO.Acrit_expm]
    rw [← hA, ← hr, ← hl]
    exact e
  have k2 : ∀ s t : ℝ, ∀ j, (PhibarFromVanLoan (SHO.F w q) t * NormedSpace.exp (s • SHO.F w q)) 0 j =
      (PhibarFromVanLoan (SHO.F w q) t * NormedSpace.exp (s • SHO.F w 0.5)) 0 j := by
    intro s t j
    have := key s t j
    rw [phibar_add, Matrix.add_apply, Matrix.add_apply] at this
    linarith
  have k3 : ∀ s : ℝ, ∀ j, (NormedSpace.exp (s • SHO.F w q)) 0 j = (NormedSpace.exp (s • SHO.F w 0.5)) 0 j := by
    intro s j
    have d1 := ((phibar_deriv (SHO.F w q) 0).mul (MDeriv.const (NormedSpace.exp (s • SHO.F w q)))) 0 j
    have d2 := ((phibar_deriv (SHO.F w q) 0).mul (MDeriv.const (NormedSpace.exp (s • SHO.F w 0.5)))) 0 j
    have d2' := d2.congr_of_eventuallyEq (.of_forall fun t => k2 s t j)
    have := d1.unique d2'
    simpa [expm_zero] using this
  have k4 : ∀ s : ℝ, ∀ j, (NormedSpace.exp (s • SHO.F w q)) 1 j = (NormedSpace.exp (s • SHO.F w 0.5)) 1 j := by
    intro s j
    have d1 := expm_deriv' (SHO.F w q) s 0 j
    have d2 := (expm_deriv' (SHO.F w 0.5) s 0 j).congr_of_eventuallyEq (.of_forall fun t => k3 t j)
    have := d1.unique d2
    simpa [SHO.F, Matrix.mul_apply, Fin.sum_univ_two] using this
  have d1 := expm_deriv' (SHO.F w q) 0 1 1
  have d2 := (expm_deriv' (SHO.F w 0.5) 0 1 1).congr_of_eventuallyEq (.of_forall fun t => k4 t 1)
  have e := d1.unique d2
  rw [expm_zero, expm_zero, Matrix.mul_one, Matrix.mul_one] at e
  have hq0 : q ≠ 0 := by
    rintro rfl
    unfold SHO.isCritical at hc
    norm_num [abs_of_pos] at hc
  simp only [SHO.F] at e
  norm_num at e
  rw [div_eq_div_iff hq0 (by norm_num)] at e
  exact hq (mul_left_cancel₀ (neg_ne_zero.2 hw.ne') e.symm)

example : ¬ (integratedSHO 1 0.500001 1 0).TransitionComposes :=
  C21_integrated_sho_window 1 0.500001 1 0 _ one_pos (by unfold SHO.isCritical; norm_num [abs_of_pos]) (by norm_num)

end Verif
