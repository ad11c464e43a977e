import Verif.Lemmas.PerturbChain
import Verif.Lemmas.LogProb
import Verif.Props.C01_AtGaps

/-! # Kernels whose process noise is off by a bounded error -/

set_option linter.unusedSectionVars false

namespace Verif
open Matrix Spec

/-- the process noise of `k` is symmetric, zero over no time, and within `ε` of the stationary one -/
structure SSM.NoiseWithin (k : SSM) (ε : ℝ) : Prop where
  zero : k.Qt 0 0 = 0
  symm : ∀ s, 0 ≤ s → (k.Qt 0 s)ᵀ = k.Qt 0 s
  near : ∀ s, 0 ≤ s → ∀ a b, |(k.Qt 0 s - (k.Pinf - k.At 0 s * k.Pinf * (k.At 0 s)ᵀ)) a b| ≤ ε

theorem row_dot {n : Type*} [Fintype n] (h : Matrix (Fin 1) n ℝ) (P : Matrix n n ℝ) : (h * P * hᵀ) 0 0 = h 0 ⬝ᵥ P *ᵥ h 0 := by
  rw [Matrix.mul_assoc, Matrix.mul_apply]
  rfl

namespace SSM
variable {k : SSM} {G : Matrix k.n k.n ℝ} (hG : k.CovModel G)
include hG

theorem CovModel.At_zero : k.At 0 0 = 1 := hG.ideal_proper.A_zero

theorem CovModel.At_add {s t : ℝ} (hs : 0 ≤ s) (ht : 0 ≤ t) : k.At 0 (s + t) = k.At 0 t * k.At 0 s := hG.ideal_proper.A_add s t hs ht

theorem CovModel.incr {s : ℝ} (hs : 0 ≤ s) : (k.Pinf - k.At 0 s * k.Pinf * (k.At 0 s)ᵀ).PosSemidef := hG.ideal_proper.Q_psd s hs

/-- transitions do not enlarge rows, measured by the stationary covariance -/
theorem CovModel.row_bound {c : ℝ} (hc : 0 < c) (hlow : ∀ v : k.n → ℝ, c * (v ⬝ᵥ v) ≤ v ⬝ᵥ k.Pinf *ᵥ v) (h : Matrix (Fin 1) k.n ℝ)
    {s : ℝ} (hs : 0 ≤ s) {b : ℝ} (hb : 0 ≤ b) (hB : Fintype.card k.n * (h * k.Pinf * hᵀ) 0 0 ≤ c * b ^ 2) :
    ∑ a, |(h * k.At 0 s) 0 a| ≤ b := by
  have h1 := ((psd_iff _).1 (hG.incr hs)).2 (h 0)
  rw [sub_mulVec, dotProduct_sub, ← row_dot h, ← row_dot h] at h1
  have e : h * (k.At 0 s * k.Pinf * (k.At 0 s)ᵀ) * hᵀ = (h * k.At 0 s) * k.Pinf * (h * k.At 0 s)ᵀ := by
    simp only [transpose_mul, Matrix.mul_assoc]
  rw [e, row_dot (h * k.At 0 s)] at h1
  have h2 := hlow ((h * k.At 0 s) 0)
  have h3 : (∑ a, |(h * k.At 0 s) 0 a|) ^ 2 ≤ Fintype.card k.n * ((h * k.At 0 s) 0 ⬝ᵥ (h * k.At 0 s) 0) := by
    refine (sq_sum_le_card_mul_sum_sq (s := Finset.univ) (f := fun a => |(h * k.At 0 s) 0 a|)).trans (le_of_eq ?_)
    simp only [sq_abs, Finset.card_univ]
    congr 1
    simp [dotProduct, sq]
  have hn : (0 : ℝ) ≤ Fintype.card k.n := Nat.cast_nonneg _
  have h4 : c * (∑ a, |(h * k.At 0 s) 0 a|) ^ 2 ≤ c * b ^ 2 := by
    calc c * (∑ a, |(h * k.At 0 s) 0 a|) ^ 2 ≤ c * (Fintype.card k.n * ((h * k.At 0 s) 0 ⬝ᵥ (h * k.At 0 s) 0)) :=
          mul_le_mul_of_nonneg_left h3 hc.le
      _ = Fintype.card k.n * (c * ((h * k.At 0 s) 0 ⬝ᵥ (h * k.At 0 s) 0)) := by ring
      _ ≤ Fintype.card k.n * (h * k.Pinf * hᵀ) 0 0 := mul_le_mul_of_nonneg_left (by linarith) hn
      _ ≤ c * b ^ 2 := hB
  exact abs_le_of_sq_le_sq' (le_of_mul_le_mul_left h4 hc) hb |>.2

end SSM

section
variable (k : SSM) (t : Arr ℝ)

/-- transition over the gap after the `j`-th time -/
def gapA (j : ℕ) : Matrix k.n k.n ℝ := k.At 0 (tau t (j + 1) - tau t j)

/-- process noise used over the gap after the `j`-th time -/
def gapQ (j : ℕ) : Matrix k.n k.n ℝ := k.Qt 0 (tau t (j + 1) - tau t j)

/-- the noise that keeps the stationary covariance over that gap -/
def gapQ0 (j : ℕ) : Matrix k.n k.n ℝ := k.Pinf - gapA k t j * k.Pinf * (gapA k t j)ᵀ

variable {k t} {G : Matrix k.n k.n ℝ} (hG : k.CovModel G) (ht : Sorted t) (hN : 0 < t.len)
include hG ht hN

theorem gap_propagator {i j : ℕ} (h : i ≤ j) : propagator (gapA k t) i j = k.At 0 (tau t j - tau t i) := by
  induction j, h using Nat.le_induction with
  | base => rw [propagator_self, sub_self, hG.At_zero]
  | succ j hj ih =>
    rw [propagator_succ _ hj, ih]
    unfold gapA
    rw [← hG.At_add (sub_nonneg.2 (tau_mono ht hN hj)) (sub_nonneg.2 (tau_mono ht hN (Nat.le_succ j)))]
    congr 1; ring

theorem ideal_marginalCov (i : ℕ) : marginalCov (gapA k t) (gapQ0 k t) k.Pinf i = k.Pinf := by
  induction i with
  | zero => rfl
  | succ i ih =>
    show gapA k t i * marginalCov (gapA k t) (gapQ0 k t) k.Pinf i * (gapA k t i)ᵀ + gapQ0 k t i = _
    rw [ih]
    show gapA k t i * k.Pinf * (gapA k t i)ᵀ + (k.Pinf - gapA k t i * k.Pinf * (gapA k t i)ᵀ) = k.Pinf
    abel

/-- with the stationary process noise, the projected states have the covariance of the kernel -/
theorem ideal_stateCov {i j : ℕ} (hi : i < t.len) (hj : j < t.len) :
    (k.Ht (t.get i) * stateCov (gapA k t) (gapQ0 k t) k.Pinf i j * (k.Ht (t.get j))ᵀ) 0 0 =
      k.evaluate (.time (t.get i)) (.time (t.get j)) := by
  have hH : ∀ s, k.Ht s = k.obsModel (.time 0) none := fun s => hG.ideal_proper.H_const (.time s)
  have hA : ∀ s t', k.A (.time s) (.time t') = k.At 0 (t' - s) := fun s t' => hG.ideal_proper.shift_A (.time s) (.time t')
  have e1 := hH (t.get i)
  have e2 := hH (t.get j)
  unfold SSM.evaluate
  change k.obsModel (.time (t.get i)) none = _ at e1
  change k.obsModel (.time (t.get j)) none = _ at e2
  rw [hH, hH]
  simp only [e1, e2, hA, Coord.sortable]
  set h := k.obsModel (.time 0) none
  unfold stateCov
  rw [ideal_marginalCov hG ht hN, ideal_marginalCov hG ht hN]
  split_ifs with h1 h2 h2
  · rw [gap_propagator hG ht hN h1, tau_eq t hi, tau_eq t hj, ← Matrix.mul_assoc]
  · have : t.get j = t.get i := le_antisymm (not_lt.1 h2) (ht _ _ h1 hj)
    rw [gap_propagator hG ht hN h1, tau_eq t hi, tau_eq t hj, this, sub_self, hG.At_zero]
    simp
  · exact absurd h2 (not_lt.2 (ht _ _ (by omega) hi))
  · rw [gap_propagator hG ht hN (by omega), tau_eq t hi, tau_eq t hj, ← Matrix.mul_assoc]

end

section
variable {k : SSM} {ε : ℝ} (hq : k.NoiseWithin ε) {G : Matrix k.n k.n ℝ} (hG : k.CovModel G) {t : Arr ℝ} (ht : Sorted t) (hN : 0 < t.len)

theorem gapQ_symm (hq : k.NoiseWithin ε) (ht : Sorted t) (hN : 0 < t.len) (j : ℕ) : (gapQ k t j)ᵀ = gapQ k t j :=
  hq.symm _ (sub_nonneg.2 (tau_mono ht hN (Nat.le_succ j)))

/-- the system the filter works with -/
noncomputable def noisyChain (hq : k.NoiseWithin ε) (hG : k.CovModel G) (ht : Sorted t) (hN : 0 < t.len) (R y : Arr ℝ) :
    Chain ((discreteGM (gapA k t) (gapQ k t) k.Pinf (gapQ_symm hq ht hN) (psd_symm hG.P_psd)).B R.get) (GM.φ k.n y.get) k.n :=
  discreteChain (gapQ_symm hq ht hN) (psd_symm hG.P_psd) (fun _ => true) (fun i => k.Ht (t.get i)) R.get y.get

/-- covariance of the data of that system -/
noncomputable def noisyData (k : SSM) (t R : Arr ℝ) : Matrix (Fin t.len) (Fin t.len) ℝ :=
  noisyGram (fun i j : Fin t.len => (k.Ht (t.get i) * stateCov (gapA k t) (gapQ k t) k.Pinf i j * (k.Ht (t.get j))ᵀ) 0 0) fun i => R.get i

/-- every step is observed -/
noncomputable def noisyObs (hq : k.NoiseWithin ε) (hG : k.CovModel G) (ht : Sorted t) (hN : 0 < t.len) (R y : Arr ℝ) :
    Fin t.len ≃ Chain.Obs (noisyChain hq hG ht hN R y) t.len :=
  (Equiv.subtypeUnivEquiv (fun _ => rfl)).symm

theorem noisyData_eq (R y : Arr ℝ) (i j : Fin t.len) : noisyData k t R i j =
    (discreteGM (gapA k t) (gapQ k t) k.Pinf (gapQ_symm hq ht hN) (psd_symm hG.P_psd)).B R.get ((noisyChain hq hG ht hN R y).Y i)
      ((noisyChain hq hG ht hN R y).Y j) := by
  have := discreteChain_YY (T := gapA k t) (gapQ_symm hq ht hN) (psd_symm hG.P_psd) (fun _ => true) (fun i => k.Ht (t.get i)) R.get y.get i j
  refine Eq.trans ?_ this.symm
  simp [noisyData, noisyGram, Fin.ext_iff]

include hq hG ht hN

variable {R y : Arr ℝ}

theorem noisy_m0 : ((k.kalman t y R).get 0).mPred = 0 := by
  unfold SSM.kalman
  rw [kf_zero_m, mulVec_zero]

theorem noisy_P0 (a b : k.n) : ((k.kalman t y R).get 0).PPred a b =
    (discreteGM (gapA k t) (gapQ k t) k.Pinf (gapQ_symm hq ht hN) (psd_symm hG.P_psd)).B R.get ((noisyChain hq hG ht hN R y).x 0 a)
      ((noisyChain hq hG ht hN R y).x 0 b) := by
  have := discreteChain_xx (T := gapA k t) (gapQ_symm hq ht hN) (psd_symm hG.P_psd) (fun _ => true) (fun i => k.Ht (t.get i)) R.get y.get 0 0 a b
  refine Eq.trans ?_ this.symm
  unfold SSM.kalman
  rw [kf_zero_P, hG.At_zero, hq.zero]
  simp [stateCov, marginalCov, propagator]

theorem noisy_mp (j : ℕ) (hj : j + 1 < t.len) :
    ((k.kalman t y R).get (j + 1)).mPred = (noisyChain hq hG ht hN R y).T j *ᵥ ((k.kalman t y R).get j).m := by
  rw [show (noisyChain hq hG ht hN R y).T j = gapA k t j from discreteChain_T ..]
  unfold SSM.kalman gapA
  rw [kf_succ_m, tau_eq t hj, tau_eq t (by omega)]

theorem noisy_Pp (j : ℕ) (hj : j + 1 < t.len) : ((k.kalman t y R).get (j + 1)).PPred =
    (noisyChain hq hG ht hN R y).T j * ((k.kalman t y R).get j).P * ((noisyChain hq hG ht hN R y).T j)ᵀ + (noisyChain hq hG ht hN R y).Q j := by
  rw [show (noisyChain hq hG ht hN R y).T j = gapA k t j from discreteChain_T ..,
    show (noisyChain hq hG ht hN R y).Q j = gapQ k t j from discreteChain_Q ..]
  unfold SSM.kalman gapA gapQ
  rw [kf_succ_P, tau_eq t hj, tau_eq t (by omega)]

theorem noisy_upd (j : ℕ) (hS : (k.Ht (t.get j) * ((k.kalman t y R).get j).PPred * (k.Ht (t.get j))ᵀ) 0 0 + R.get j ≠ 0) :
    ∃ K : Matrix k.n (Fin 1) ℝ,
      (∀ a, K a 0 * ((k.Ht (t.get j) * ((k.kalman t y R).get j).PPred * (k.Ht (t.get j))ᵀ) 0 0 + R.get j) =
        (((k.kalman t y R).get j).PPred * (k.Ht (t.get j))ᵀ) a 0) ∧
      (((k.kalman t y R).get j).m = fun a => ((k.kalman t y R).get j).mPred a +
        K a 0 * (y.get j - (k.Ht (t.get j) *ᵥ ((k.kalman t y R).get j).mPred) 0)) ∧
      (((k.kalman t y R).get j).P = fun a b => ((k.kalman t y R).get j).PPred a b -
        K a 0 * ((k.Ht (t.get j) * ((k.kalman t y R).get j).PPred * (k.Ht (t.get j))ᵀ) 0 0 + R.get j) * K b 0) := by
  have hu : (k.kalman t y R).get j = kalmanUpdate (k.Ht (t.get j)) (R.get j) (y.get j) ((k.kalman t y R).get j).mPred
      ((k.kalman t y R).get j).PPred := kf_upd ..
  refine ⟨gain (k.Ht (t.get j)) (R.get j) (y.get j) ((k.kalman t y R).get j).mPred ((k.kalman t y R).get j).PPred,
    fun a => gain_apply _ _ _ _ _ _ hS, ?_, ?_⟩
  · conv_lhs => rw [hu]
    rw [update_m]
  · conv_lhs => rw [hu]
    rw [update_P]

theorem noisy_S_pos (hpd : (noisyData k t R).PosDef) {j : ℕ} (hj : j < t.len) :
    0 < (k.Ht (t.get j) * ((k.kalman t y R).get j).PPred * (k.Ht (t.get j))ᵀ) 0 0 + R.get j := by
  have e : noisyData k t R = Matrix.of fun i j : Fin t.len =>
      (discreteGM (gapA k t) (gapQ k t) k.Pinf (gapQ_symm hq ht hN) (psd_symm hG.P_psd)).B R.get ((noisyChain hq hG ht hN R y).Y i)
        ((noisyChain hq hG ht hN R y).Y j) := by
    ext i j; exact noisyData_eq hq hG ht hN R y i j
  rw [e] at hpd
  exact (noisyChain hq hG ht hN R y).S_pos_of_pd (fun _ => rfl) hpd (mp := fun j => ((k.kalman t y R).get j).mPred)
    (mf := fun j => ((k.kalman t y R).get j).m) (Pp := fun j => ((k.kalman t y R).get j).PPred)
    (Pf := fun j => ((k.kalman t y R).get j).P) (noisy_m0 hq hG ht hN) (noisy_P0 hq hG ht hN) (noisy_mp hq hG ht hN)
    (noisy_Pp hq hG ht hN) (fun j _ hS => noisy_upd hq hG ht hN j hS) hj

theorem noisy_filter (hpd : (noisyData k t R).PosDef) : (noisyChain hq hG ht hN R y).Filter t.len
    (fun j => ((k.kalman t y R).get j).mPred) (fun j => ((k.kalman t y R).get j).PPred)
    (fun j => ((k.kalman t y R).get j).m) (fun j => ((k.kalman t y R).get j).P) where
  m0 := noisy_m0 hq hG ht hN
  P0 := noisy_P0 hq hG ht hN
  mp_succ := noisy_mp hq hG ht hN
  Pp_succ := noisy_Pp hq hG ht hN
  upd j hj _ := noisy_upd hq hG ht hN j (noisy_S_pos hq hG ht hN hpd hj).ne'
  noupd j _ h := by cases h

/-- the likelihood is that of the system the filter works with -/
theorem noisy_likelihood (hpd : (noisyData k t R).PosDef) :
    k.logProbability t y R = ((gaussLogDensity (noisyData k t R) (fun i => y.get i) : ℝ) : EReal) := by
  have hf := noisy_filter (y := y) hq hG ht hN hpd
  have hS : ∀ i < t.len, 0 < ((k.kalman t y R).get i).S 0 0 := fun i hi => by
    have := noisy_S_pos (y := y) hq hG ht hN hpd hi
    rw [show (k.kalman t y R).get i = kalmanUpdate (k.Ht (t.get i)) (R.get i) (y.get i) ((k.kalman t y R).get i).mPred
      ((k.kalman t y R).get i).PPred from kf_upd .., update_S]
    exact this
  have e := computeLogProb_eq ((k.kalman t y R).map FilterOut.v) ((k.kalman t y R).map FilterOut.S) hS
  have hlp : k.logProbability t y R = ((-(1 / 2) * ∑ i : Fin t.len,
      ((((k.kalman t y R).get i).v 0 / Real.sqrt (((k.kalman t y R).get i).S 0 0)) ^ 2 +
      2 * Real.log (Real.sqrt (((k.kalman t y R).get i).S 0 0)) + 1 * Real.log (2 * Real.pi)) : ℝ) : EReal) := e
  rw [hlp]
  congr 1
  obtain ⟨h1, h2⟩ := hf.likelihood_equiv (noisyObs hq hG ht hN R y)
    (fun i => ((k.kalman t y R).get i).S 0 0) (fun i => ((k.kalman t y R).get i).v 0)
    (fun i _ _ => rfl) (fun i _ _ => rfl) (fun i hi _ => (hS i hi).ne') (noisyData k t R)
    (fun i j => noisyData_eq hq hG ht hN R y i j)
  exact (logDensity_of_innovations (fun i : Fin t.len => hS i i.2) h1 h2).symm

end

end Verif
