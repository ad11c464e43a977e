import Verif.Lemmas.PerturbChain
import Verif.Props.C09_IntegratedExact

/-! # The integrated filter with process noise that need not be positive semidefinite -/

set_option linter.unusedSectionVars false

namespace Verif
open Matrix Spec

namespace Chain
variable {V : Type*} [AddCommGroup V] [Module ℝ V] {n : Type*} [Fintype n] [DecidableEq n]
  {B : LinearMap.BilinForm ℝ V} {φ : V →ₗ[ℝ] ℝ} (c : Chain B φ n) {N : ℕ} {ι : Type*} [Fintype ι] [DecidableEq ι] (e : ι ≃ Obs c N)

/-- combinations of observations before `N` -/
theorem mem_U_sum_equiv {k : ℕ} (hk : k ≤ N) {u : V} (hu : u ∈ c.U k) :
    ∃ w : ι → ℝ, (∀ i, k ≤ ((e i).1 : ℕ) → w i = 0) ∧ u = ∑ i, w i • c.Y (e i).1 := by
  induction k generalizing u with
  | zero =>
    simp only [U, Submodule.mem_bot] at hu
    exact ⟨0, fun _ _ => rfl, by simp [hu]⟩
  | succ k ih =>
    by_cases ho : c.isObs k = true
    · simp only [U, ho, if_true, addObs] at hu
      obtain ⟨u', hu', v, hv, rfl⟩ := Submodule.mem_sup.1 hu
      obtain ⟨a, rfl⟩ := Submodule.mem_span_singleton.1 hv
      obtain ⟨w, hw, rfl⟩ := ih (by omega) hu'
      set j := e.symm ⟨⟨k, hk⟩, ho⟩ with hj
      have hej : e j = ⟨⟨k, hk⟩, ho⟩ := e.apply_symm_apply _
      refine ⟨w + Pi.single j a, fun i hi => ?_, ?_⟩
      · rw [Pi.add_apply, hw i (by omega), Pi.single_eq_of_ne (by rintro rfl; rw [hej] at hi; simp at hi), add_zero]
      · simp only [Pi.add_apply, add_smul, Finset.sum_add_distrib]
        congr 1
        rw [Finset.sum_eq_single j (fun i _ hi => by rw [Pi.single_eq_of_ne hi, zero_smul]) (by simp), Pi.single_eq_same, hej]
    · simp only [U, ho] at hu
      obtain ⟨w, hw, rfl⟩ := ih (by omega) hu
      exact ⟨w, fun i hi => hw i (by omega), rfl⟩

/-- observations with positive definite covariance: none is a combination of the earlier ones -/
theorem innovation_pos_of_pd_equiv (hpd : (Matrix.of fun i j : ι => B (c.Y (e i).1) (c.Y (e j).1)).PosDef) {k : ℕ} (hk : k < N)
    (ho : c.isObs k = true) {u : V} (hu : u ∈ c.U k) : 0 < B (c.Y k - u) (c.Y k - u) := by
  obtain ⟨w, hw, rfl⟩ := c.mem_U_sum_equiv e hk.le hu
  set l := e.symm ⟨⟨k, hk⟩, ho⟩ with hl
  have hel : e l = ⟨⟨k, hk⟩, ho⟩ := e.apply_symm_apply _
  have e1 : c.Y k - ∑ i, w i • c.Y (e i).1 = ∑ i, (Pi.single l 1 - w : ι → ℝ) i • c.Y (e i).1 := by
    simp only [Pi.sub_apply, sub_smul, Finset.sum_sub_distrib]
    congr 1
    rw [Finset.sum_eq_single l (fun i _ hi => by rw [Pi.single_eq_of_ne hi, zero_smul]) (by simp), Pi.single_eq_same, one_smul, hel]
  rw [e1, B_sum_sum]
  refine ((pd_iff _).1 hpd).2 _ fun h => ?_
  have := congrFun h l
  rw [Pi.sub_apply, Pi.single_eq_same, hw l (by rw [hel])] at this
  norm_num at this

/-- A recursion that updates correctly at observed steps whenever the innovation variance is not zero, on observations with positive definite
covariance: all innovation variances are positive. -/
theorem S_pos_of_pd_equiv (hpd : (Matrix.of fun i j : ι => B (c.Y (e i).1) (c.Y (e j).1)).PosDef)
    {mp mf : ℕ → n → ℝ} {Pp Pf : ℕ → Matrix n n ℝ} (m0 : mp 0 = 0) (P0 : ∀ a b, Pp 0 a b = B (c.x 0 a) (c.x 0 b))
    (mp_succ : ∀ k, k + 1 < N → mp (k + 1) = c.T k *ᵥ mf k)
    (Pp_succ : ∀ k, k + 1 < N → Pp (k + 1) = c.T k * Pf k * (c.T k)ᵀ + c.Q k)
    (upd : ∀ k < N, c.isObs k = true → (c.H k * Pp k * (c.H k)ᵀ) 0 0 + c.R k ≠ 0 →
      ∃ K : Matrix n (Fin 1) ℝ, (∀ a, K a 0 * ((c.H k * Pp k * (c.H k)ᵀ) 0 0 + c.R k) = (Pp k * (c.H k)ᵀ) a 0) ∧
        (mf k = fun a => mp k a + K a 0 * (c.y k - (c.H k *ᵥ mp k) 0)) ∧
        (Pf k = fun a b => Pp k a b - K a 0 * ((c.H k * Pp k * (c.H k)ᵀ) 0 0 + c.R k) * K b 0))
    (noupd : ∀ k < N, c.isObs k = false → mf k = mp k ∧ Pf k = Pp k)
    {k : ℕ} (hk : k < N) (ho : c.isObs k = true) : 0 < (c.H k * Pp k * (c.H k)ᵀ) 0 0 + c.R k := by
  induction k using Nat.strong_induction_on with
  | _ k ih =>
    have f : c.Filter k mp Pp mf Pf := {
      m0 := m0
      P0 := P0
      mp_succ := fun j hj => mp_succ j (by omega)
      Pp_succ := fun j hj => Pp_succ j (by omega)
      upd := fun j hj h => upd j (by omega) h (ih j hj (by omega) h).ne'
      noupd := fun j hj h => noupd j (by omega) h }
    have hest : ∃ Xh, IsEst B φ (c.U k) (c.x k) Xh (mp k) (Pp k) := by
      cases k with
      | zero => rw [m0]; exact ⟨_, IsEst.prior _ _ P0⟩
      | succ k =>
        rw [mp_succ k hk, Pp_succ k hk]
        exact c.est_next (f.est_filt (Nat.lt_succ_self k))
    obtain ⟨Xh, hXh⟩ := hest
    obtain ⟨u, hu, e'⟩ := c.innovation_var hXh
    rw [e']
    exact c.innovation_pos_of_pd_equiv e hpd hk ho hu

end Chain

/-- if the data covariance of the augmented model is positive definite, the filter never divides by zero -/
theorem integrated_S_pos {k : SSM} {X : Arr Coord} (hk : k.SymmModel X) {y R : Arr ℝ} {e : ℕ → ℕ} (he : ∀ n < X.len, IsEnd X n (e n))
    (hpd : (augmentedGram k X R e).PosDef) {n : ℕ} (hn : n < X.len) : 0 < ((k.integratedKalman X y R).get (e n)).S 0 0 := by
  have hN : 0 < X.len := by omega
  have hend : ∀ j, (k.chain X y R hk hN).isObs j = true → (stateCoords X).stateid.get j ≠ 0 := by
    intro j h
    simpa [SSM.chain, eventChain, discreteChain] using h
  have hG : (Matrix.of fun i j : Fin X.len => ((discreteGM ((stateCoords X).transition k.At k.reset) ((stateCoords X).noise k.Qt) _
      (hk.noise hN) hk.init).B fun l => R.get ((stateCoords X).obsid.get l)) ((k.chain X y R hk hN).Y (endEquiv (y := y) (R := R) hk hN i).1)
      ((k.chain X y R hk hN).Y (endEquiv (y := y) (R := R) hk hN j).1)) = augmentedGram k X R e := by
    ext i j
    exact (chain_gram hk hN he i j).symm
  rw [← hG] at hpd
  have hlt : e n < (stateCoords X).t.len := by rw [sc_len]; exact (he n hn).1
  have h0 : (stateCoords X).stateid.get (e n) ≠ 0 := by rw [(he n hn).2.2]; omega
  have ho : (k.chain X y R hk hN).isObs (e n) = true := by
    simpa [SSM.chain, eventChain, discreteChain] using h0
  have main := (k.chain X y R hk hN).S_pos_of_pd_equiv (endEquiv (y := y) (R := R) hk hN) hpd
    (mp := fun k' => ((integratedKalmanFilter k.At k.Qt (X.map fun x => k.obsModel x none) k.reset R y (stateCoords X) 0 k.Pinf).get k').mPred)
    (Pp := fun k' => ((integratedKalmanFilter k.At k.Qt (X.map fun x => k.obsModel x none) k.reset R y (stateCoords X) 0 k.Pinf).get k').PPred)
    (mf := preM (stateCoords X) (integratedKalmanFilter k.At k.Qt (X.map fun x => k.obsModel x none) k.reset R y (stateCoords X) 0 k.Pinf))
    (Pf := preP (stateCoords X) (integratedKalmanFilter k.At k.Qt (X.map fun x => k.obsModel x none) k.reset R y (stateCoords X) 0 k.Pinf))
    ?_ ?_ ?_ ?_ ?_ ?_ hlt ho
  · unfold SSM.integratedKalman
    rw [ikf_end _ _ _ _ _ _ _ _ _ h0, update_S]
    exact main
  · show ((integratedKalmanFilter _ _ _ _ _ _ _ _ _).get 0).mPred = 0
    rw [ikf_zero_m, mulVec_zero]
  · intro a b
    unfold SSM.chain
    rw [eventChain, discreteChain_xx]
    show ((integratedKalmanFilter _ _ _ _ _ _ _ _ _).get 0).PPred a b = _
    rw [ikf_zero_P]
    simp [stateCov, marginalCov, propagator]
  · intro j hj
    unfold SSM.chain
    rw [eventChain, discreteChain_T]
    show ((integratedKalmanFilter _ _ _ _ _ _ _ _ _).get (j + 1)).mPred = _
    rw [ikf_succ_m, StateCoords.transition, (stateCoords X).gap_eq hj, StateCoords.jump, preM]
    by_cases h : (stateCoords X).stateid.get j = 0
    · rw [if_pos h, if_pos h, ← mulVec_mulVec, ikf_start _ _ _ _ _ _ _ _ _ h]
    · rw [if_neg h, if_neg h, Matrix.mul_one]
  · intro j hj
    unfold SSM.chain
    rw [eventChain, discreteChain_T, discreteChain_Q]
    show ((integratedKalmanFilter _ _ _ _ _ _ _ _ _).get (j + 1)).PPred = _
    rw [ikf_succ_P, StateCoords.transition, StateCoords.noise, (stateCoords X).gap_eq hj, StateCoords.jump, preP]
    by_cases h : (stateCoords X).stateid.get j = 0
    · rw [if_pos h, if_pos h, ikf_start _ _ _ _ _ _ _ _ _ h, transpose_mul]
      simp only [Matrix.mul_assoc]
    · rw [if_neg h, if_neg h, Matrix.mul_one]
  · intro j hj ho hS
    have h := hend j ho
    refine ⟨gain _ _ _ _ _, fun a => gain_apply _ _ (y.get ((stateCoords X).obsid.get j)) ((integratedKalmanFilter k.At k.Qt
      (X.map fun x => k.obsModel x none) k.reset R y (stateCoords X) 0 k.Pinf).get j).mPred _ _ hS, ?_, ?_⟩
    · rw [preM, if_neg h, ikf_end _ _ _ _ _ _ _ _ _ h, update_m]; rfl
    · rw [preP, if_neg h, ikf_end _ _ _ _ _ _ _ _ _ h, update_P]; rfl
  · intro j hj ho
    have h : (stateCoords X).stateid.get j = 0 := by simpa [SSM.chain, eventChain, discreteChain] using ho
    rw [preM, preP, if_pos h, if_pos h]
    exact ⟨rfl, rfl⟩

end Verif
