import Verif.Props.C13_Events
import Verif.Lemmas.IntExact
import Verif.Lemmas.LogProb

/-!
# C09, C10: the integrated solver is exact for the augmented model with resets

`k.eventCov X i j` (`Spec/Augmented.lean`) is the covariance of the states just before events `i` and `j` of the linear system that
is propagated by the kernel's transition matrix and process noise between events and reset at exposure starts.
-/

set_option linter.unusedSectionVars false

namespace Verif
open Matrix Spec

/-- what the augmented model says about the covariance of measurements `i` and `j`, ended at steps `e i` and `e j` -/
noncomputable def augmentedCov (k : SSM) (X : Arr Coord) (e : ℕ → ℕ) (i j : ℕ) : ℝ :=
  (k.obsModel (X.get i) none * k.eventCov X (e i) (e j) * (k.obsModel (X.get j) none)ᵀ) 0 0

/-- covariance matrix of the noisy data in the augmented model -/
noncomputable def augmentedGram (k : SSM) (X : Arr Coord) (R : Arr ℝ) (e : ℕ → ℕ) : Matrix (Fin X.len) (Fin X.len) ℝ :=
  noisyGram (fun i j : Fin X.len => augmentedCov k X e i j) (fun i => R.get i)

/-- the stationary covariance and the process noise over the gaps between the events of `X` are symmetric -/
structure SSM.SymmModel (k : SSM) (X : Arr Coord) : Prop where
  P : k.Pinfᵀ = k.Pinf
  Q0 : (k.Qt 0 0)ᵀ = k.Qt 0 0
  Q : ∀ j, j + 1 < 2 * X.len → (k.Qt 0 ((stateCoords X).t.get (j + 1) - (stateCoords X).t.get j))ᵀ =
    k.Qt 0 ((stateCoords X).t.get (j + 1) - (stateCoords X).t.get j)

/-- ... and positive semidefinite -/
structure SSM.PsdModel (k : SSM) (X : Arr Coord) : Prop where
  P : k.Pinf.PosSemidef
  Q0 : (k.Qt 0 0).PosSemidef
  Q : ∀ j, j + 1 < 2 * X.len → (k.Qt 0 ((stateCoords X).t.get (j + 1) - (stateCoords X).t.get j)).PosSemidef

theorem SSM.PsdModel.symm {k : SSM} {X : Arr Coord} (h : k.PsdModel X) : k.SymmModel X :=
  ⟨psd_symm h.P, psd_symm h.Q0, fun j hj => psd_symm (h.Q j hj)⟩

theorem SSM.PsdModel.of_nonneg {k : SSM} {X : Arr Coord} (hP : k.Pinf.PosSemidef) (hQ : ∀ s, 0 ≤ s → (k.Qt 0 s).PosSemidef) :
    k.PsdModel X :=
  ⟨hP, hQ 0 le_rfl, fun j hj => hQ _ (sub_nonneg.2 (sc_sorted _ _ (Nat.le_succ j) (by rw [sc_len]; exact hj)))⟩

section
variable {k : SSM} {X : Arr Coord} (hk : k.SymmModel X) {y R : Arr ℝ} {e : ℕ → ℕ}

theorem SSM.SymmModel.noise (hk : k.SymmModel X) (hN : 0 < X.len) (j : ℕ) :
    ((stateCoords X).noise k.Qt j)ᵀ = (stateCoords X).noise k.Qt j := by
  unfold StateCoords.noise StateCoords.gap
  rw [sc_len]
  by_cases hj : j + 1 < 2 * X.len
  · rw [min_eq_left (by omega), min_eq_left (by omega)]
    exact hk.Q j hj
  · rw [min_eq_right (by omega), min_eq_right (by omega), sub_self]
    exact hk.Q0

theorem SSM.SymmModel.init (hk : k.SymmModel X) :
    (k.At 0 0 * k.Pinf * (k.At 0 0)ᵀ + k.Qt 0 0)ᵀ = k.At 0 0 * k.Pinf * (k.At 0 0)ᵀ + k.Qt 0 0 := by
  rw [transpose_add, transpose_mul, transpose_mul, transpose_transpose, hk.P, hk.Q0, Matrix.mul_assoc]

/-- the chain of an exposure data set -/
noncomputable def SSM.chain (k : SSM) (X : Arr Coord) (y R : Arr ℝ) (hk : k.SymmModel X) (hN : 0 < X.len) :=
  eventChain k.At k.Qt (X.map fun x => k.obsModel x none) k.reset R y (stateCoords X) k.Pinf (hk.noise hN) hk.init

theorem obsid_lt {j : ℕ} (hj : j < 2 * X.len) : (stateCoords X).obsid.get j < X.len := by
  have := ev_lt hj
  rw [sc_obsid]; omega

/-- measurements and observed steps -/
noncomputable def endEquiv (hk : k.SymmModel X) (hN : 0 < X.len) : Fin X.len ≃ Chain.Obs (k.chain X y R hk hN) (stateCoords X).t.len where
  toFun i := ⟨⟨endStep X i, by rw [sc_len]; exact endStep_lt i.2⟩, by
    show ((stateCoords X).stateid.get (endStep X i) != 0) = true
    rw [sc_stateid, ev_endStep i.2, show (2 * (i : ℕ) + 1) % 2 = 1 by omega]
    rfl⟩
  invFun j := ⟨(stateCoords X).obsid.get j.1, obsid_lt (sc_len (X := X) ▸ j.1.2)⟩
  left_inv i := by
    ext
    show ev X (endStep X i) / 2 = i
    rw [ev_endStep i.2]; omega
  right_inv j := by
    have hlt : (j.1 : ℕ) < 2 * X.len := sc_len (X := X) ▸ j.1.2
    have h : ((stateCoords X).stateid.get j.1 != 0) = true := j.2
    rw [sc_stateid] at h
    have h' : ev X j.1 % 2 ≠ 0 := by simpa using h
    ext
    show endStep X (ev X j.1 / 2) = j.1
    have h2 := obsid_lt hlt
    rw [sc_obsid] at h2
    exact (endStep_unique h2 hlt (by omega)).symm

theorem endStep_inj {i j : ℕ} (hi : i < X.len) (hj : j < X.len) (h : endStep X i = endStep X j) : i = j := by
  have h1 := ev_endStep hi
  have h2 := ev_endStep hj
  rw [h] at h1; omega

theorem chain_gram (hN : 0 < X.len) (he : ∀ n < X.len, IsEnd X n (e n)) (i j : Fin X.len) :
    augmentedGram k X R e i j = ((discreteGM ((stateCoords X).transition k.At k.reset) ((stateCoords X).noise k.Qt) _ (hk.noise hN) hk.init).B
      fun l => R.get ((stateCoords X).obsid.get l)) ((k.chain X y R hk hN).Y (endEquiv (y := y) (R := R) hk hN i).1)
      ((k.chain X y R hk hN).Y (endEquiv (y := y) (R := R) hk hN j).1) := by
  unfold SSM.chain eventChain
  rw [discreteChain_YY]
  have ei := (isEnd_iff i.2).1 (he i i.2)
  have ej := (isEnd_iff j.2).1 (he j j.2)
  have oi : (stateCoords X).obsid.get (endStep X i) = i := ((isEnd_iff i.2).2 rfl).2.1
  have oj : (stateCoords X).obsid.get (endStep X j) = j := ((isEnd_iff j.2).2 rfl).2.1
  show augmentedCov k X e i j + (if i = j then R.get i else 0) =
    ((X.map fun x => k.obsModel x none).get ((stateCoords X).obsid.get (endStep X i)) * k.eventCov X (endStep X i) (endStep X j) *
      ((X.map fun x => k.obsModel x none).get ((stateCoords X).obsid.get (endStep X j)))ᵀ) 0 0 +
      if endStep X i = endStep X j then R.get ((stateCoords X).obsid.get (endStep X i)) else 0
  unfold augmentedCov
  rw [ei, ej, oi, oj]
  congr 1
  by_cases h : i = j
  · rw [if_pos h, if_pos (by rw [h])]
  · rw [if_neg h, if_neg fun hh => h (Fin.ext (endStep_inj i.2 j.2 hh))]

theorem ikalman_S_pos (hk : k.PsdModel X) (hR : ∀ i < X.len, 0 < R.get i) {j : ℕ} (hj : j < 2 * X.len) :
    ((k.integratedKalman X y R).get j).PPred.PosSemidef ∧ ((k.integratedKalman X y R).get j).P.PosSemidef := by
  have upd : ∀ j < 2 * X.len, ((k.integratedKalman X y R).get j).PPred.PosSemidef →
      ((k.integratedKalman X y R).get j).P.PosSemidef := by
    intro j hj h
    unfold SSM.integratedKalman at h ⊢
    by_cases h0 : (stateCoords X).stateid.get j = 0
    · rw [ikf_start _ _ _ _ _ _ _ _ _ h0]
      exact psd_conj h _
    · rw [ikf_end _ _ _ _ _ _ _ _ _ h0]
      exact update_psd h (hR _ (obsid_lt hj))
  induction j with
  | zero =>
    have h0 : ((k.integratedKalman X y R).get 0).PPred.PosSemidef := by
      unfold SSM.integratedKalman
      rw [ikf_zero_P]
      exact (psd_conj hk.P _).add hk.Q0
    exact ⟨h0, upd 0 hj h0⟩
  | succ j ih =>
    have h0 : ((k.integratedKalman X y R).get (j + 1)).PPred.PosSemidef := by
      unfold SSM.integratedKalman
      rw [ikf_succ_P]
      exact (psd_conj (ih (by omega)).2 _).add (hk.Q j hj)
    exact ⟨h0, upd _ hj h0⟩

theorem SSM.PsdModel.S_pos (hk : k.PsdModel X) (hR : ∀ i < X.len, 0 < R.get i) {n j : ℕ} (hn : n < X.len) (hj : IsEnd X n j) :
    0 < ((k.integratedKalman X y R).get j).S 0 0 := by
  have h := (ikalman_S_pos (y := y) hk hR hj.1).1
  have h0 : (stateCoords X).stateid.get j ≠ 0 := by rw [hj.2.2]; omega
  unfold SSM.integratedKalman at h ⊢
  rw [ikf_end _ _ _ _ _ _ _ _ _ h0, update_S]
  exact innovation_pos h (by rw [hj.2.1]; exact hR n hn)

include hk in
theorem integrated_gram (he : ∀ n < X.len, IsEnd X n (e n)) (hN : 0 < X.len)
    (hS : ∀ n < X.len, ((k.integratedKalman X y R).get (e n)).S 0 0 ≠ 0) :
    (augmentedGram k X R e).det = ∏ i : Fin X.len, ((k.integratedKalman X y R).get (e i)).S 0 0 ∧
    (fun i : Fin X.len => y.get i) ⬝ᵥ (augmentedGram k X R e)⁻¹ *ᵥ (fun i : Fin X.len => y.get i) =
      ∑ i : Fin X.len, (((k.integratedKalman X y R).get (e i)).v 0) ^ 2 / ((k.integratedKalman X y R).get (e i)).S 0 0 := by
  have hS' : ∀ j < (stateCoords X).t.len, (stateCoords X).stateid.get j ≠ 0 →
      ((k.integratedKalman X y R).get j).S 0 0 ≠ 0 := by
    intro j hj h
    rw [sc_len] at hj
    have hend : IsEnd X ((stateCoords X).obsid.get j) j := ⟨hj, rfl, by rw [sc_stateid] at h ⊢; omega⟩
    have h1 := hS _ (obsid_lt hj)
    rwa [(isEnd_iff (obsid_lt hj)).1 (he _ (obsid_lt hj)), ← (isEnd_iff (obsid_lt hj)).1 hend] at h1
  have hf := ifilter_isFilter (H := X.map fun x => k.obsModel x none) (reset := k.reset) (R := R) (y := y) (hk.noise hN) hk.init hS'
  have hend : ∀ j, ((eventChain k.At k.Qt (X.map fun x => k.obsModel x none) k.reset R y (stateCoords X) k.Pinf (hk.noise hN) hk.init).isObs j) = true →
      (stateCoords X).stateid.get j ≠ 0 := by
    intro j h
    simpa [eventChain, discreteChain] using h
  have main := hf.likelihood_equiv (endEquiv (y := y) (R := R) hk hN)
    (fun j => ((k.integratedKalman X y R).get j).S 0 0)
    (fun j => ((k.integratedKalman X y R).get j).v 0)
    (fun j _ h => by
      show ((k.integratedKalman X y R).get j).S 0 0 = _
      unfold SSM.integratedKalman
      rw [ikf_end _ _ _ _ _ _ _ _ _ (hend j h), update_S]; rfl)
    (fun j _ h => by
      show ((k.integratedKalman X y R).get j).v 0 = _
      unfold SSM.integratedKalman
      rw [ikf_end _ _ _ _ _ _ _ _ _ (hend j h), update_v]; rfl)
    (fun j hj h => hS' j hj (hend j h)) (augmentedGram k X R e) (chain_gram hk hN he)
  have hee : ∀ i : Fin X.len, ((endEquiv (y := y) (R := R) hk hN i).1 : ℕ) = e i := fun i =>
    ((isEnd_iff i.2).1 (he i i.2)).symm
  have hy : (fun i : Fin X.len => (k.chain X y R hk hN).y (endEquiv (y := y) (R := R) hk hN i).1) = fun i : Fin X.len => y.get i := by
    funext i
    show y.get ((stateCoords X).obsid.get (endStep X i)) = _
    rw [((isEnd_iff i.2).2 rfl).2.1]
  refine ⟨main.1.trans (Finset.prod_congr rfl fun i _ => by rw [hee]), ?_⟩
  have h2 := main.2
  change (fun i : Fin X.len => (k.chain X y R hk hN).y (endEquiv (y := y) (R := R) hk hN i).1) ⬝ᵥ _ *ᵥ
    (fun i : Fin X.len => (k.chain X y R hk hN).y (endEquiv (y := y) (R := R) hk hN i).1) = _ at h2
  rw [hy] at h2
  exact h2.trans (Finset.sum_congr rfl fun i _ => by rw [hee])

end

/-- **C09.** For an integrated kernel `log_probability(y)` is the log density of `N(0, C + D)` at `y`, where `C` is the covariance
of the measured quantities (the observation model of measurement `n` applied to the augmented state at the end of exposure `n`)
and `D` the noise diagonal. Any number of exposures, any overlaps, any input order. -/
theorem C09_integrated_likelihood_exact (k : SSM) (X : Arr Coord) (hk : k.SymmModel X) (y R : Arr ℝ) (hy : y.len = X.len)
    (e : ℕ → ℕ) (he : ∀ n < X.len, IsEnd X n (e n))
    (hS : ∀ n < X.len, 0 < ((k.integratedKalman X y R).get (e n)).S 0 0) :
    k.integratedLogProbability X y R =
      ((gaussLogDensity (augmentedGram k X R e) (fun i => y.get i) : ℝ) : EReal) := by
  have hpos : ∀ i : Fin X.len, (endsIdx (stateCoords X) X.len).get i = e (endPos X i) := fun i => by
    rw [← endPos_spec, (isEnd_iff (endPos X i).2).1 (he _ (endPos X i).2)]
  unfold SSM.integratedLogProbability
  rw [hy]
  have hlen : (((k.integratedKalman X y R).map FilterOut.v).take (endsIdx (stateCoords X) X.len)).len = X.len := rfl
  have h := computeLogProb_of_pos (((k.integratedKalman X y R).map FilterOut.v).take (endsIdx (stateCoords X) X.len))
    (((k.integratedKalman X y R).map FilterOut.S).take (endsIdx (stateCoords X) X.len)) (fun i hi => by
      rw [hlen] at hi
      show 0 < ((k.integratedKalman X y R).get ((endsIdx (stateCoords X) X.len).get i)).S 0 0
      have := hpos ⟨i, hi⟩
      simp only at this
      rw [this]
      exact hS _ (endPos X ⟨i, hi⟩).2)
  refine h.trans ?_
  rw [hlen]
  congr 1
  refine Eq.trans (congrArg _ (?_ : _ = ∑ i : Fin X.len, ((((k.integratedKalman X y R).get ((endsIdx (stateCoords X) X.len).get i)).v 0 /
      Real.sqrt (((k.integratedKalman X y R).get ((endsIdx (stateCoords X) X.len).get i)).S 0 0)) ^ 2 +
    2 * Real.log (Real.sqrt (((k.integratedKalman X y R).get ((endsIdx (stateCoords X) X.len).get i)).S 0 0)) +
    1 * Real.log (2 * Real.pi)))) ?_
  · exact Finset.sum_range _
  rcases Nat.eq_zero_or_pos X.len with h0 | hN
  · have : IsEmpty (Fin X.len) := by rw [h0]; infer_instance
    simp [gaussLogDensity]
  · obtain ⟨h1, h2⟩ := integrated_gram hk he hN fun n hn => (hS n hn).ne'
    rw [logDensity_of_innovations (fun i : Fin X.len => hS i i.2) h1 h2]
    congr 1
    refine Eq.trans ?_ ((Equiv.ofBijective _ (endPos_bij (X := X))).sum_comp _)
    refine Finset.sum_congr rfl fun i _ => ?_
    rw [hpos]
    rfl

/-- **C09**, for a kernel with positive semidefinite stationary covariance and process noise, and positive noise. -/
theorem C09_integrated_likelihood_exact_psd (k : SSM) (X : Arr Coord) (hk : k.PsdModel X) (y R : Arr ℝ) (hy : y.len = X.len)
    (hR : ∀ i < X.len, 0 < R.get i) (e : ℕ → ℕ) (he : ∀ n < X.len, IsEnd X n (e n)) :
    k.integratedLogProbability X y R =
      ((gaussLogDensity (augmentedGram k X R e) (fun i => y.get i) : ℝ) : EReal) :=
  C09_integrated_likelihood_exact k X hk.symm y R hy e he fun n hn => hk.S_pos hR hn (he n hn)

/-- **C10.** Whatever linear function `h` of the augmented state just before event `j` is asked for, the smoothed mean and covariance
give its exact posterior given all the data. (Just before an exposure start means before the reset; just before an exposure end
is the state that is observed there.) -/
theorem C10_integrated_smoothing_exact (k : SSM) (X : Arr Coord) (hk : k.SymmModel X) (y R : Arr ℝ)
    (e : ℕ → ℕ) (he : ∀ n < X.len, IsEnd X n (e n))
    (hS : ∀ n < X.len, ((k.integratedKalman X y R).get (e n)).S 0 0 ≠ 0)
    (hP : ∀ j, j + 1 < 2 * X.len → IsUnit ((k.integratedKalman X y R).get (j + 1)).PPred.det)
    (hlast : (stateCoords X).stateid.get (2 * X.len - 1) = 1)
    (j : ℕ) (hj : j < 2 * X.len) (h : Matrix (Fin 1) k.n ℝ) :
    (h *ᵥ ((k.integratedCondition X y R).2.get j).m) 0 =
      postMean (augmentedGram k X R e) (fun i => y.get i)
        (fun i => (h * k.eventCov X j (e i) * (k.obsModel (X.get i) none)ᵀ) 0 0) ∧
    (h * ((k.integratedCondition X y R).2.get j).P * hᵀ) 0 0 =
      postVar (augmentedGram k X R e) ((h * k.eventCov X j j * hᵀ) 0 0)
        (fun i => (h * k.eventCov X j (e i) * (k.obsModel (X.get i) none)ᵀ) 0 0) := by
  have hN : 0 < X.len := by omega
  have hS' : ∀ j < (stateCoords X).t.len, (stateCoords X).stateid.get j ≠ 0 →
      ((k.integratedKalman X y R).get j).S 0 0 ≠ 0 := by
    intro j hj h
    rw [sc_len] at hj
    have hend : IsEnd X ((stateCoords X).obsid.get j) j := ⟨hj, rfl, by rw [sc_stateid] at h ⊢; omega⟩
    have h1 := hS _ (obsid_lt hj)
    rwa [(isEnd_iff (obsid_lt hj)).1 (he _ (obsid_lt hj)), ← (isEnd_iff (obsid_lt hj)).1 hend] at h1
  have hf := ifilter_isFilter (H := X.map fun x => k.obsModel x none) (reset := k.reset) (R := R) (y := y) (hk.noise hN) hk.init hS'
  have hs := irts_isSmoother (H := X.map fun x => k.obsModel x none) (reset := k.reset) (R := R) (y := y) (hk.noise hN) hk.init
    (by rw [sc_len, hlast]; omega) (fun j hj => hP j (by rwa [sc_len] at hj))
  obtain ⟨Xh, hest⟩ := hs.est hf (k := j) (by rw [sc_len]; exact hj)
  have hspan := Chain.U_eq_span_equiv (endEquiv (y := y) (R := R) hk hN)
  have hunit : IsUnit (augmentedGram k X R e).det := by
    rw [(integrated_gram hk he hN hS).1]
    exact isUnit_iff_ne_zero.2 (Finset.prod_ne_zero_iff.2 fun i _ => hS i i.2)
  have main := IsEst.dense_scalar (k.chain X y R hk hN).symm _
    (Eq.mp (congrArg (fun W => IsEst _ _ W _ _ _ _) hspan) hest) (augmentedGram k X R e) (chain_gram hk hN he) hunit h
  have e1 : (fun i : Fin X.len => ((discreteGM ((stateCoords X).transition k.At k.reset) ((stateCoords X).noise k.Qt) _ (hk.noise hN) hk.init).B
      fun l => R.get ((stateCoords X).obsid.get l)) (lin h ((k.chain X y R hk hN).x j) 0)
      ((k.chain X y R hk hN).Y (endEquiv (y := y) (R := R) hk hN i).1)) =
      fun i : Fin X.len => (h * k.eventCov X j (e i) * (k.obsModel (X.get i) none)ᵀ) 0 0 := by
    funext i
    unfold SSM.chain eventChain
    rw [discreteChain_xY]
    have ei := (isEnd_iff i.2).1 (he i i.2)
    have oi : (stateCoords X).obsid.get (endStep X i) = i := ((isEnd_iff i.2).2 rfl).2.1
    show (h * k.eventCov X j (endStep X i) * ((X.map fun x => k.obsModel x none).get ((stateCoords X).obsid.get (endStep X i)))ᵀ) 0 0 = _
    rw [oi, ei]
    rfl
  have e2 : (fun i : Fin X.len => GM.φ k.n (fun l => y.get ((stateCoords X).obsid.get l))
      ((k.chain X y R hk hN).Y (endEquiv (y := y) (R := R) hk hN i).1)) = fun i : Fin X.len => y.get i := by
    funext i
    refine ((k.chain X y R hk hN).hy _).trans ?_
    show y.get ((stateCoords X).obsid.get (endStep X i)) = _
    rw [((isEnd_iff i.2).2 rfl).2.1]
  have e3 : ((discreteGM ((stateCoords X).transition k.At k.reset) ((stateCoords X).noise k.Qt) _ (hk.noise hN) hk.init).B
      fun l => R.get ((stateCoords X).obsid.get l)) (lin h ((k.chain X y R hk hN).x j) 0) (lin h ((k.chain X y R hk hN).x j) 0) =
      (h * k.eventCov X j j * hᵀ) 0 0 :=
    B_lin_lin _ h h _ _ _ (fun a b => discreteChain_xx (hk.noise hN) hk.init _ _ _ _ j j a b)
  rw [← e1, ← e2, ← e3]
  exact main

/-- If every exposure has positive length the last event is an end, so the hypothesis `hlast` of `C10` holds. -/
theorem last_event_is_end (X : Arr Coord) (hN : 0 < X.len) (hd : ∀ n < X.len, 0 < (X.get n).delta) :
    (stateCoords X).stateid.get (2 * X.len - 1) = 1 := by
  rw [sc_stateid]
  by_contra h
  have hlt := ev_lt (X := X) (k := 2 * X.len - 1) (by omega)
  have hst : IsStart X (ev X (2 * X.len - 1) / 2) (2 * X.len - 1) := ⟨by omega, rfl, by rw [sc_stateid]; omega⟩
  have hn : ev X (2 * X.len - 1) / 2 < X.len := by omega
  have := (C13_start_before_end X _ _ _ hn hst ((isEnd_iff hn).2 rfl)).2 (hd _ hn)
  have := endStep_lt hn
  omega

/-- **C10** for the reported rows: mean and variance of measurement `n` after `condition(y)` are the exact posterior ones. -/
theorem C10_conditioned_exact (k : SSM) (X : Arr Coord) (hk : k.SymmModel X) (y R : Arr ℝ)
    (e : ℕ → ℕ) (he : ∀ n < X.len, IsEnd X n (e n)) (hd : ∀ n < X.len, 0 < (X.get n).delta)
    (hS : ∀ n < X.len, ((k.integratedKalman X y R).get (e n)).S 0 0 ≠ 0)
    (hP : ∀ j, j + 1 < 2 * X.len → IsUnit ((k.integratedKalman X y R).get (j + 1)).PPred.det)
    (n : ℕ) (hn : n < X.len) :
    (k.integratedConditionedAtData X y R).get n =
      (postMean (augmentedGram k X R e) (fun i => y.get i) (fun i => augmentedCov k X e n i),
       postVar (augmentedGram k X R e) (augmentedCov k X e n n) (fun i => augmentedCov k X e n i)) := by
  rw [C14_results_in_input_order k X y R n (e n) hn (he n hn)]
  obtain ⟨h1, h2⟩ := C10_integrated_smoothing_exact k X hk y R e he hS hP (last_event_is_end X (by omega) hd) (e n) (he n hn).1
    (k.obsModel (X.get n) none)
  exact Prod.ext h1 h2

end Verif
