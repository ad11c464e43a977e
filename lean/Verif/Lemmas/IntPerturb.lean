import Verif.Lemmas.IntSum
import Verif.Lemmas.PerturbChain
import Mathlib.Analysis.Calculus.MeanValue

/-! # Integrated kernels whose process noise is perturbed -/

set_option linter.unusedSectionVars false

namespace Verif
open Matrix Spec

section rows
variable {n : Type} [Fintype n] [DecidableEq n] (F : Matrix n n ℝ) (first : n) (m : ℕ)

/-- a row vector pushed through one step -/
theorem row_step (h : Matrix (Fin 1) (n ⊕ Fin (m + 1)) ℝ) (dt : ℝ) (o : Option (Fin (m + 1))) :
    (∀ a, (h * (augA F first m dt * jumpMat (n := n) m o)) 0 (.inl a) =
      (∑ b, h 0 (.inl b) * NormedSpace.exp (dt • F) b a) + (∑ j, h 0 (.inr j)) * PhibarFromVanLoan F dt first a) ∧
    ∀ j, (h * (augA F first m dt * jumpMat (n := n) m o)) 0 (.inr j) = if o = some j then 0 else h 0 (.inr j) := by
  have e1 : ∀ a, (h * augA F first m dt) 0 (.inl a) =
      (∑ b, h 0 (.inl b) * NormedSpace.exp (dt • F) b a) + (∑ j, h 0 (.inr j)) * PhibarFromVanLoan F dt first a := by
    intro a
    rw [Matrix.mul_apply, Fintype.sum_sum_type, Finset.sum_mul]
    rfl
  have e2 : ∀ j, (h * augA F first m dt) 0 (.inr j) = h 0 (.inr j) := by
    intro j
    rw [Matrix.mul_apply, Fintype.sum_sum_type]
    simp [augA, Matrix.one_apply]
  rw [← Matrix.mul_assoc]
  cases o with
  | none =>
    simp only [jumpMat, Matrix.mul_one]
    exact ⟨e1, fun j => by rw [e2]; simp⟩
  | some i =>
    simp only [jumpMat, resetMat, Matrix.mul_diagonal]
    refine ⟨fun a => by rw [e1]; simp, fun j => ?_⟩
    rw [e2]
    by_cases hj : j = i
    · simp [hj]
    · simp [hj, Ne.symm hj]

/-- entries of the integrated transition matrix are bounded by those of the transition matrix -/
theorem phibar_row_le {c : n → ℝ} (hc : ∀ t : ℝ, 0 ≤ t → ∀ a, |NormedSpace.exp (t • F) first a| ≤ c a) {s r : ℝ} (hs : 0 ≤ s) (hr : 0 ≤ r)
    (a : n) : |(PhibarFromVanLoan F s * NormedSpace.exp (r • F)) first a| ≤ c a * s := by
  have hd : ∀ t, HasDerivAt (fun t => (PhibarFromVanLoan F t * NormedSpace.exp (r • F)) first a)
      ((NormedSpace.exp ((t + r) • F)) first a) t := by
    intro t
    have := ((phibar_deriv F t).mul (MDeriv.const (NormedSpace.exp (r • F)))) first a
    simp only [Matrix.mul_zero, add_zero] at this
    rw [expm_add]
    exact this
  have h := (convex_Icc (0 : ℝ) s).norm_image_sub_le_of_norm_hasDerivWithin_le (C := c a) (x := 0) (y := s)
    (fun t _ => (hd t).hasDerivWithinAt) (fun t ht => hc _ (add_nonneg ht.1 hr) a) ⟨le_rfl, hs⟩ ⟨hs, le_rfl⟩
  rw [phibar_zero, Matrix.zero_mul, Real.norm_eq_abs, Real.norm_eq_abs, sub_zero, abs_of_nonneg hs] at h
  simpa using h

variable {τ : ℕ → ℝ} (hτ : Monotone τ) (rs : ℕ → Option (Fin (m + 1)))

local notation "T" => fun j : ℕ => augA F first m (τ (j + 1) - τ j) * jumpMat (n := n) m (rs j)

/-- what the value of the latent process at event `s` depends on -/
theorem latent_row {h : Matrix (Fin 1) (n ⊕ Fin (m + 1)) ℝ} (h1 : ∀ a, h 0 (.inl a) = if a = first then 1 else 0) (h2 : ∀ j, h 0 (.inr j) = 0)
    {s l : ℕ} (hl : l ≤ s) :
    (∀ a, (h * propagator T l s) 0 (.inl a) = NormedSpace.exp ((τ s - τ l) • F) first a) ∧ ∀ j, (h * propagator T l s) 0 (.inr j) = 0 := by
  obtain ⟨d, rfl⟩ := Nat.exists_eq_add_of_le hl
  induction d generalizing l with
  | zero =>
    simp only [add_zero, propagator_self, Matrix.mul_one, sub_self, expm_zero]
    refine ⟨fun a => ?_, h2⟩
    rw [h1, Matrix.one_apply]
    simp only [eq_comm]
  | succ d ih =>
    have e : l + (d + 1) = l + 1 + d := by omega
    obtain ⟨i1, i2⟩ := ih (l := l + 1) (by omega)
    rw [e, propagator_comp T (Nat.le_succ l) (by omega), propagator_one, ← Matrix.mul_assoc]
    obtain ⟨s1, s2⟩ := row_step F first m (h * propagator T (l + 1) (l + 1 + d)) (τ (l + 1) - τ l) (rs l)
    refine ⟨fun a => ?_, fun j => ?_⟩
    · rw [s1]
      simp only [i1, i2, Finset.sum_const_zero, zero_mul, add_zero]
      have e2 : τ (l + 1 + d) - τ l = (τ (l + 1 + d) - τ (l + 1)) + (τ (l + 1) - τ l) := by ring
      rw [e2, expm_add, Matrix.mul_apply]
    · rw [s2, i2]; simp

include hτ in
/-- what an exposure average depends on -/
theorem exposure_row {h : Matrix (Fin 1) (n ⊕ Fin (m + 1)) ℝ} {σ : Fin (m + 1)} {w : ℝ} (h1 : ∀ a, h 0 (.inl a) = 0)
    (h2 : ∀ j, h 0 (.inr j) = if j = σ then w else 0) {a e l : ℕ} (ha : rs a = some σ) (hae : a < e) (hl : l ≤ e) :
    ∃ x v : ℝ, τ a ≤ x ∧ x ≤ τ e ∧
      (∀ b, (h * propagator T l e) 0 (.inl b) = w * (PhibarFromVanLoan F (τ e - x) * NormedSpace.exp ((x - τ l) • F)) first b) ∧
      (∀ j, (h * propagator T l e) 0 (.inr j) = if j = σ then v else 0) ∧
      ((v = w ∧ x = τ l ∧ a < l) ∨ (v = 0 ∧ τ l ≤ x)) := by
  obtain ⟨d, rfl⟩ := Nat.exists_eq_add_of_le hl
  induction d generalizing l with
  | zero =>
    simp only [add_zero] at *
    refine ⟨τ l, w, hτ hae.le, le_rfl, fun b => ?_, fun j => ?_, .inl ⟨rfl, rfl, hae⟩⟩
    · rw [propagator_self, Matrix.mul_one, h1, sub_self, phibar_zero, Matrix.zero_mul]
      simp
    · rw [propagator_self, Matrix.mul_one, h2]
  | succ d ih =>
    have e : l + (d + 1) = l + 1 + d := by omega
    rw [e] at hae
    obtain ⟨x, v, hax, hxe, i1, i2, hv⟩ := ih (l := l + 1) hae (by omega)
    rw [e, propagator_comp T (Nat.le_succ l) (by omega), propagator_one, ← Matrix.mul_assoc]
    obtain ⟨s1, s2⟩ := row_step F first m (h * propagator T (l + 1) (l + 1 + d)) (τ (l + 1) - τ l) (rs l)
    have hsum : ∑ j, (h * propagator T (l + 1) (l + 1 + d)) 0 (.inr j) = v := by
      simp only [i2]
      rw [Finset.sum_ite_eq' Finset.univ σ, if_pos (Finset.mem_univ _)]
    have hexp : ∀ b, ∑ c, (h * propagator T (l + 1) (l + 1 + d)) 0 (.inl c) * NormedSpace.exp ((τ (l + 1) - τ l) • F) c b =
        w * (PhibarFromVanLoan F (τ (l + 1 + d) - x) * NormedSpace.exp ((x - τ l) • F)) first b := by
      intro b
      have e2 : x - τ l = (x - τ (l + 1)) + (τ (l + 1) - τ l) := by ring
      rw [e2, expm_add, ← Matrix.mul_assoc, Matrix.mul_apply, Finset.mul_sum]
      exact Finset.sum_congr rfl fun c _ => by rw [i1, mul_assoc]
    have hstep : ∀ j, (if rs l = some j then 0 else if j = σ then v else 0) = if j = σ then (if rs l = some σ then 0 else v) else 0 := by
      intro j
      by_cases hj : j = σ
      · simp [hj]
      · simp [hj]
    rcases hv with ⟨rfl, rfl, hal⟩ | ⟨rfl, hx⟩
    · refine ⟨τ l, if rs l = some σ then 0 else v, hτ (by omega), hτ (by omega), fun b => ?_, fun j => ?_, ?_⟩
      · rw [s1, hexp, hsum, ← mul_add, ← Matrix.add_apply]
        have e3 : τ (l + 1 + d) - τ l = (τ (l + 1) - τ l) + (τ (l + 1 + d) - τ (l + 1)) := by ring
        rw [e3, phibar_add, sub_self, zero_smul, NormedSpace.exp_zero, Matrix.mul_one, add_comm]
      · rw [s2, i2, hstep]
      · rcases Nat.lt_or_eq_of_le (Nat.lt_succ_iff.1 hal) with hl' | rfl
        · by_cases hr : rs l = some σ
          · exact .inr ⟨if_pos hr, le_rfl⟩
          · exact .inl ⟨if_neg hr, rfl, hl'⟩
        · exact .inr ⟨if_pos ha, le_rfl⟩
    · refine ⟨x, 0, hax, hxe, fun b => ?_, fun j => ?_, .inr ⟨rfl, (hτ (Nat.le_succ l)).trans hx⟩⟩
      · rw [s1, hexp, hsum, zero_mul, add_zero]
      · rw [s2, i2, hstep]; simp

variable {c : n → ℝ} (hc : ∀ t : ℝ, 0 ≤ t → ∀ a, |NormedSpace.exp (t • F) first a| ≤ c a)
include hτ hc

theorem latent_row_bound {h : Matrix (Fin 1) (n ⊕ Fin (m + 1)) ℝ} (h1 : ∀ a, h 0 (.inl a) = if a = first then 1 else 0)
    (h2 : ∀ j, h 0 (.inr j) = 0) {s l : ℕ} (hl : l ≤ s) : ∑ a, |(h * propagator T l s) 0 a| ≤ ∑ a, c a := by
  obtain ⟨i1, i2⟩ := latent_row F first m rs h1 h2 hl (τ := τ)
  rw [Fintype.sum_sum_type]
  simp only [i1, i2, abs_zero, Finset.sum_const_zero, add_zero]
  exact Finset.sum_le_sum fun a _ => hc _ (sub_nonneg.2 (hτ hl)) a

theorem exposure_row_bound {h : Matrix (Fin 1) (n ⊕ Fin (m + 1)) ℝ} {σ : Fin (m + 1)} {δ : ℝ} (hδ : 0 < δ) (h1 : ∀ a, h 0 (.inl a) = 0)
    (h2 : ∀ j, h 0 (.inr j) = if j = σ then 1 / δ else 0) {a e l : ℕ} (ha : rs a = some σ) (hae : a < e) (hd : τ e - τ a = δ) (hl : l ≤ e) :
    ∑ a, |(h * propagator T l e) 0 a| ≤ (∑ a, c a) + 1 / δ := by
  obtain ⟨x, v, hax, hxe, i1, i2, hv⟩ := exposure_row F first m hτ rs h1 h2 ha hae hl
  have hx : τ l ≤ x := by rcases hv with ⟨-, h, -⟩ | ⟨-, h⟩ <;> linarith
  have hv' : |v| ≤ 1 / δ := by
    rcases hv with ⟨h, -⟩ | ⟨h, -⟩ <;> rw [h]
    · rw [abs_of_pos (by positivity)]
    · rw [abs_zero]; positivity
  rw [Fintype.sum_sum_type]
  refine add_le_add (Finset.sum_le_sum fun b _ => ?_) ?_
  · rw [i1, abs_mul, abs_of_pos (by positivity : 0 < 1 / δ)]
    have h3 := phibar_row_le F first hc (sub_nonneg.2 hxe) (sub_nonneg.2 hx) b
    have hc0 : 0 ≤ c b := (abs_nonneg _).trans (hc 0 le_rfl b)
    have h4 : c b * (τ e - x) ≤ c b * δ := mul_le_mul_of_nonneg_left (by linarith) hc0
    rw [one_div, inv_mul_le_iff₀ hδ, mul_comm δ]
    exact h3.trans h4
  · simp only [i2]
    rw [Finset.sum_congr rfl fun j _ => (apply_ite abs (j = σ) v 0)]
    rw [abs_zero, Finset.sum_ite_eq' Finset.univ σ, if_pos (Finset.mem_univ _)]
    exact hv'

end rows

/-! ### integrated leaves -/

/-- in the augmented model the covariance of the quantities observed at coordinates `c` and `d` is within `E` of `K c d` -/
def SSM.MeasuresUpTo (k : SSM) (X : Arr Coord) (K : Coord → Coord → ℝ) (E : ℝ) : Prop := ∀ s c s' d, Probe X s c → Probe X s' d →
  |(k.obsModel c none * k.eventCov X s s' * (k.obsModel d none)ᵀ) 0 0 - K c d| ≤ E

theorem SSM.Measures.upTo {k : SSM} {X : Arr Coord} {K : Coord → Coord → ℝ} (h : k.Measures X K) : k.MeasuresUpTo X K 0 :=
  fun s c s' d hc hd => by rw [h s c s' d hc hd, sub_self, abs_zero]

theorem SSM.MeasuresUpTo.congr {k : SSM} {X : Arr Coord} {K K' : Coord → Coord → ℝ} {E : ℝ} (h : k.MeasuresUpTo X K E)
    (hK : ∀ c d, K c d = K' c d) : k.MeasuresUpTo X K' E := fun s c s' d hc hd => by rw [← hK]; exact h s c s' d hc hd

theorem SSM.MeasuresUpTo.sum {k1 k2 : SSM} {X : Arr Coord} {K1 K2 : Coord → Coord → ℝ} {E1 E2 : ℝ} (h1 : k1.MeasuresUpTo X K1 E1)
    (h2 : k2.MeasuresUpTo X K2 E2) : (k1.sum k2).MeasuresUpTo X (fun c d => K1 c d + K2 c d) (E1 + E2) := by
  intro s c s' d hc hd
  have e : ((k1.sum k2).obsModel c none * (k1.sum k2).eventCov X s s' * ((k1.sum k2).obsModel d none)ᵀ) 0 0 =
      (k1.obsModel c none * k1.eventCov X s s' * (k1.obsModel d none)ᵀ) 0 0 + (k2.obsModel c none * k2.eventCov X s s' * (k2.obsModel d none)ᵀ) 0 0 :=
    (congrArg (fun M => ((k1.sum k2).obsModel c none * M * ((k1.sum k2).obsModel d none)ᵀ) 0 0) (eventCov_sum k1 k2 X s s')).trans
      (hstack_blockDiag (k1.obsModel c none) (k2.obsModel c none) (k1.eventCov X s s') (k2.eventCov X s s')
        (k1.obsModel d none) (k2.obsModel d none))
  have a1 := abs_le.1 (h1 s c s' d hc hd)
  have a2 := abs_le.1 (h2 s c s' d hc hd)
  rw [e, abs_le]
  constructor <;> linarith [a1.1, a1.2, a2.1, a2.2]

section leaf
variable {name : String} {m : ℕ} {base : SSM} {first : base.n} {phibar : ℝ → ℝ → Matrix base.n base.n ℝ} {q12 : ℝ → ℝ → base.n → ℝ}
  {q22 : ℝ → ℝ → ℝ}

local notation "K" => integratedSSM name m base first phibar q12 q22

theorem probe_lt {X : Arr Coord} {s : ℕ} {c : Coord} (h : Probe X s c) : s < 2 * X.len := by
  cases h with
  | latent hs => exact hs
  | measurement hi he => exact he.1

/-- the size of the rows that probes of the state correspond to at earlier events, if exposures are instantaneous or at least as long as `D` -/
theorem Probe.row_bound {X : Arr Coord} (hX : Schedule m X) (hN : 0 < X.len) {c : base.n → ℝ}
    (hc : ∀ t : ℝ, 0 ≤ t → ∀ a, |NormedSpace.exp (t • base.F) first a| ≤ c a) {D : ℝ} (hD : 0 < D)
    (hδ : ∀ i < X.len, (X.get i).delta = 0 ∨ D ≤ (X.get i).delta) {s : ℕ} {x : Coord} (hx : Probe X s x) {l : ℕ} (hl : l ≤ s) :
    ∑ a, |(integratedSSM.obs m base first x *
      propagator (fun j => augA base.F first m (evTime X (j + 1) - evTime X j) * jumpMat (n := base.n) m (resetSlot X m j)) l s) 0 a| ≤
        (∑ a, c a) + 1 / D := by
  have hτ := evTime_mono hN
  have hD' : 0 ≤ 1 / D := by positivity
  have lat : ∀ h : Matrix (Fin 1) (base.n ⊕ Fin (m + 1)) ℝ,
      (∀ a, h 0 a = Sum.elim (fun a => if a = first then 1 else 0) (fun _ => 0) a) →
      ∑ a, |(h * propagator (fun j => augA base.F first m (evTime X (j + 1) - evTime X j) * jumpMat (n := base.n) m (resetSlot X m j)) l s) 0 a| ≤
        (∑ a, c a) + 1 / D := fun h hh =>
    (latent_row_bound base.F first m hτ (resetSlot X m) hc (fun a => hh (.inl a)) (fun j => hh (.inr j)) hl).trans (by linarith)
  cases hx with
  | latent hs => exact lat _ fun a => rfl
  | @measurement i _ hi he =>
    cases hXi : X.get i with
    | time t => exact lat _ fun a => rfl
    | exposure t d o =>
      have hd0 := hX.delta_nonneg i hi
      rw [hXi] at hd0
      by_cases hd : 0 < d
      · have hDd : D ≤ d := by
          have := hδ i hi
          rw [hXi] at this
          exact this.resolve_left hd.ne'
        have hst : IsStart X i (startStep X i) := (isStart_iff hi).2 rfl
        have hr : resetSlot X m (startStep X i) = some (slot m o) := by
          unfold resetSlot
          rw [if_pos hst.2.2, hst.2.1]
          show some (slot m (X.get i).inst) = _
          rw [hXi]; rfl
        have hlt : startStep X i < s := (C13_start_before_end X i _ s hi hst he).2 (by rw [hXi]; exact hd)
        have hob : ∀ a, integratedSSM.obs m base first (.exposure t d o) 0 a =
            Sum.elim (fun _ => (0 : ℝ)) (fun j => if j = slot m o then 1 / d else 0) a := by
          intro a
          simp only [integratedSSM.obs, of_apply, gt_iff_lt, if_pos hd]
        have hgap : evTime X s - evTime X (startStep X i) = d := by
          rw [evTime_end hi he, evTime_start hi hst, hXi]
          simp only [Coord.stop, Coord.start, Coord.delta, Coord.sortable]
          ring
        refine (exposure_row_bound base.F first m hτ (resetSlot X m) hc hd (fun a => hob (.inl a)) (fun j => hob (.inr j)) hr hlt hgap hl).trans ?_
        have : 1 / d ≤ 1 / D := one_div_le_one_div_of_le hD hDd
        linarith
      · refine lat _ fun a => ?_
        simp only [integratedSSM.obs, of_apply, gt_iff_lt, if_neg hd]

/-- what an integrated kernel with inexact process noise measures -/
theorem integrated_measures_upTo (hA : (K).TransitionIsExp) (hP : base.Pinfᵀ = base.Pinf)
    {X : Arr Coord} (hX : Schedule m X) (hN : 0 < X.len) {ε : ℝ} (hε : 0 ≤ ε)
    (hQ : ∀ s : ℝ, 0 ≤ s → ∀ a b, |(K).Qt 0 s a b - augQ base.F base.Pinf first m s a b| ≤ ε)
    (hQ0 : (K).NoiseIntegralOver 0) {c : base.n → ℝ}
    (hc : ∀ t : ℝ, 0 ≤ t → ∀ a, |NormedSpace.exp (t • base.F) first a| ≤ c a) {D : ℝ} (hD : 0 < D)
    (hδ : ∀ i < X.len, (X.get i).delta = 0 ∨ D ≤ (X.get i).delta) :
    (K).MeasuresUpTo X (exposureCov (latK base.F base.Pinf first)) ((2 * X.len : ℕ) * (ε * ((∑ a, c a) + 1 / D) * ((∑ a, c a) + 1 / D))) := by
  intro s x s' y hx hy
  have hT : (stateCoords X).transition (K).At (K).reset =
      fun j => augA base.F first m (evTime X (j + 1) - evTime X j) * jumpMat (n := base.n) m (resetSlot X m j) := by
    funext j
    unfold StateCoords.transition
    have e : (stateCoords X).jump (K).reset j = jumpMat m (resetSlot X m j) := by
      unfold StateCoords.jump resetSlot
      split_ifs <;> rfl
    rw [integrated_At hA, e]
    rfl
  have hP0 : (K).At 0 0 * (K).Pinf * ((K).At 0 0)ᵀ + (K).Qt 0 0 = fromBlocks base.Pinf 0 0 1 := by
    have e1 : (K).At 0 0 = 1 := by
      rw [integrated_At hA]
      unfold augA
      rw [expm_zero, phibar_zero]
      exact fromBlocks_one
    have e2 : (K).Qt 0 0 = 0 := by
      ext i j
      rw [hQ0 i j, intervalIntegral.integral_same]; rfl
    rw [e1, e2, Matrix.one_mul, transpose_one, Matrix.mul_one, add_zero]
    rfl
  have hexact : (integratedSSM.obs m base first x * stateCov (fun j => augA base.F first m (evTime X (j + 1) - evTime X j) * jumpMat (n := base.n) m (resetSlot X m j))
      (fun j => augQ base.F base.Pinf first m (evTime X (j + 1) - evTime X j)) (fromBlocks base.Pinf 0 0 1) s s' *
      (integratedSSM.obs m base first y)ᵀ) 0 0 = exposureCov (latK base.F base.Pinf first) x y := by
    rw [← measVar_cov base.F base.Pinf first hP (fun _ => 1), ← integrated_obs x hX hx, ← integrated_obs y hX hy]
    refine (B_lin_lin ((intGM base.F base.Pinf hP first).B fun _ => 1) _ _ _ _ _ fun a b => ?_).symm
    exact (stateCov_aug base.F base.Pinf hP first m (evTime X) (resetSlot X m) (evTime_mono hN) s s' a b).symm
  have e : ∀ c, (K).obsModel c none = integratedSSM.obs m base first c := fun c => defaultObs_none _ _ _
  rw [e, e, ← hexact]
  unfold SSM.eventCov
  rw [hT, hP0]
  refine stateCov_perturb (N := 2 * X.len) hε (fun l _ a b => ?_) (probe_lt hx) (probe_lt hy)
    (fun l hl => hx.row_bound hX hN hc hD hδ hl) (fun l hl => hy.row_bound hX hN hc hD hδ hl)
  exact hQ _ (sub_nonneg.2 (evTime_mono hN (Nat.le_succ l))) a b

end leaf

end Verif
