import Verif.Lemmas.IntPd

/-!
# C56: which exposure schedules can be conditioned on

The smoother solves a linear system with the predicted covariance of the next event. If all exposures start at different times these
systems are positive definite; if two exposures start at the same time, one of them is singular.
-/

namespace Verif
open Matrix Spec

/-- sums of exported integrated kernels other than `IntegratedCosine` (which has no process noise), with non-zero amplitudes -/
inductive DrivenSum (shoOk : ℝ → Prop) (m : ℕ) : SSM → (ℝ → ℝ) → Prop
  | exp {scale sigma : ℝ} {m' : ℕ} {name : String} (hs : 0 < scale) (hσ : sigma ≠ 0) (hm : m ≤ m') :
      DrivenSum shoOk m (integratedExp scale sigma m' name) (covExp scale sigma)
  | matern32 {scale sigma : ℝ} {m' : ℕ} {name : String} (hs : 0 < scale) (hσ : sigma ≠ 0) (hm : m ≤ m') :
      DrivenSum shoOk m (integratedMatern32 scale sigma m' name) (covMatern32 scale sigma)
  | matern52 {scale sigma : ℝ} {m' : ℕ} {name : String} (hs : 0 < scale) (hσ : sigma ≠ 0) (hm : m ≤ m') :
      DrivenSum shoOk m (integratedMatern52 scale sigma m' name) (covMatern52 scale sigma)
  | sho {omega quality sigma : ℝ} {m' : ℕ} {name : String} (hw : 0 < omega) (hq : 0 < quality) (ok : shoOk quality) (hσ : sigma ≠ 0)
      (hm : m ≤ m') : DrivenSum shoOk m (integratedSHO omega quality sigma m' name) (covSHO omega quality sigma)
  | sum {k1 k2 : SSM} {κ1 κ2 : ℝ → ℝ} (h1 : DrivenSum shoOk m k1 κ1) (h2 : DrivenSum shoOk m k2 κ2) :
      DrivenSum shoOk m (k1.sum k2) fun r => κ1 r + κ2 r

theorem DrivenSum.toSum {p : ℝ → Prop} {m : ℕ} {k : SSM} {κ : ℝ → ℝ} (h : DrivenSum p m k κ) : IntegratedSum p m k κ := by
  induction h with
  | exp hs _ hm => exact .exp hs hm
  | matern32 hs _ hm => exact .matern32 hs hm
  | matern52 hs _ hm => exact .matern52 hs hm
  | sho hw hq ok _ hm => exact .sho hw hq ok hm
  | sum _ _ h1 h2 => exact .sum h1 h2

theorem DrivenSum.mono {p q : ℝ → Prop} (hpq : ∀ x, p x → q x) {m : ℕ} {k : SSM} {κ : ℝ → ℝ} (h : DrivenSum p m k κ) :
    DrivenSum q m k κ := by
  induction h with
  | exp hs hσ hm => exact .exp hs hσ hm
  | matern32 hs hσ hm => exact .matern32 hs hσ hm
  | matern52 hs hσ hm => exact .matern52 hs hσ hm
  | sho hw hq ok hσ hm => exact .sho hw hq (hpq _ ok) hσ hm
  | sum _ _ h1 h2 => exact .sum h1 h2

theorem DrivenSum.P_pd {p : ℝ → Prop} {m : ℕ} {k : SSM} {κ : ℝ → ℝ} (h : DrivenSum p m k κ) : k.Pinf.PosDef := by
  have one : ∀ m : ℕ, (1 : Matrix (Fin (m + 1)) (Fin (m + 1)) ℝ).PosDef := fun m => PosDef.one
  induction h with
  | exp hs hσ hm => exact blockDiag_pd (Exp.Pinf_pd _ hσ) (one _)
  | @matern32 scale sigma m' name hs hσ hm =>
    have hl : 0 < Matern32.lam scale := by unfold Matern32.lam; positivity
    exact blockDiag_pd (Matern32.Pinf_pd _ _ hl.ne' hσ) (one _)
  | @matern52 scale sigma m' name hs hσ hm =>
    have hl : 0 < Matern52.lam scale := by unfold Matern52.lam; positivity
    exact blockDiag_pd (Matern52.Pinf_pd _ _ hl.ne' hσ) (one _)
  | sho hw hq ok hσ hm => exact blockDiag_pd (SHO.Pinf_pd hw.ne' hσ) (one _)
  | sum _ _ h1 h2 => exact blockDiag_pd h1 h2

theorem outer_one (q : ℝ) : (!![1] : Matrix (Fin 1) (Fin 1) ℝ) * (!![q] : Matrix (Fin 1) (Fin 1) ℝ) * (!![1] : Matrix (Fin 1) (Fin 1) ℝ)ᵀ =
    q • Matrix.of fun i j => (![1] : Fin 1 → ℝ) i * (![1] : Fin 1 → ℝ) j := by
  ext i j; fin_cases i; fin_cases j; simp [Matrix.mul_apply]

theorem outer_two (q : ℝ) : (!![0; 1] : Matrix (Fin 2) (Fin 1) ℝ) * (!![q] : Matrix (Fin 1) (Fin 1) ℝ) * (!![0; 1] : Matrix (Fin 2) (Fin 1) ℝ)ᵀ =
    q • Matrix.of fun i j => (![0, 1] : Fin 2 → ℝ) i * (![0, 1] : Fin 2 → ℝ) j := by
  ext i j; fin_cases i <;> fin_cases j <;> simp [Matrix.mul_apply]

theorem outer_three (q : ℝ) : (!![0; 0; 1] : Matrix (Fin 3) (Fin 1) ℝ) * (!![q] : Matrix (Fin 1) (Fin 1) ℝ) *
    (!![0; 0; 1] : Matrix (Fin 3) (Fin 1) ℝ)ᵀ = q • Matrix.of fun i j => (![0, 0, 1] : Fin 3 → ℝ) i * (![0, 0, 1] : Fin 3 → ℝ) j := by
  ext i j; fin_cases i <;> fin_cases j <;> simp [Matrix.mul_apply]

theorem DrivenSum.refills {m : ℕ} {k : SSM} {κ : ℝ → ℝ} (h : DrivenSum SHO.Genuine m k κ) : k.Refills m := by
  induction h with
  | @exp scale sigma m' name hs hσ hm =>
    exact integrated_refills (base := expKernel scale sigma) (l := ![1]) (q := 2 * (1 / scale) * sigma ^ 2) (by positivity) (outer_one _) (reach_exp _)
  | @matern32 scale sigma m' name hs hσ hm =>
    have hl : 0 < Matern32.lam scale := by unfold Matern32.lam; positivity
    exact integrated_refills (base := Verif.matern32 scale sigma) (l := ![0, 1]) (q := 4 * (Matern32.lam scale) ^ 3 * sigma ^ 2) (by positivity) (outer_two _) (reach_two _ _)
  | @matern52 scale sigma m' name hs hσ hm =>
    have hl : 0 < Matern52.lam scale := by unfold Matern52.lam; positivity
    exact integrated_refills (base := Verif.matern52 scale sigma) (l := ![0, 0, 1]) (q := 16 * (Matern52.lam scale) ^ 5 * sigma ^ 2 / 3) (by positivity) (outer_three _) (reach_three _ _ _)
  | @sho w q sigma m' name hw hq ok hσ hm =>
    exact integrated_refills (base := Verif.sho w q sigma) (l := ![0, 1]) (q := 2 * w ^ 3 * sigma ^ 2 / q) (by positivity) (outer_two _) (reach_two _ _)
  | sum d1 d2 h1 h2 => exact h1.sum h2 d1.toSum.ok.src_psd d2.toSum.ok.src_psd

theorem IntegratedSum.transitionIsExp {m : ℕ} {k : SSM} {κ : ℝ → ℝ} (h : IntegratedSum SHO.Genuine m k κ) : k.TransitionIsExp := by
  induction h with
  | exp hs hm => exact C32_shipped_transition _ (.exp hs)
  | matern32 hs hm => exact C32_shipped_transition _ (.matern32 hs)
  | matern52 hs hm => exact C32_shipped_transition _ (.matern52 hs)
  | cosine hs hm => exact C32_shipped_transition _ (.cosine hs)
  | sho hw hq ok hm => exact C32_shipped_transition _ (.sho hw hq ok)
  | sum _ _ h1 h2 => exact h1.sum h2

theorem SSM.TransitionIsExp.unit {k : SSM} (h : k.TransitionIsExp) (s : ℝ) : IsUnit (k.At 0 s).det := by
  have e : k.At 0 s = NormedSpace.exp ((s - 0) • k.F) := h (.time 0) (.time s)
  rw [e]
  exact Matrix.isUnit_det_of_left_inverse (B := NormedSpace.exp ((-(s - 0)) • k.F)) (by rw [← expm_add, neg_add_cancel, expm_zero])

theorem refill_pd {n : Type} [Fintype n] {P R A Q : Matrix n n ℝ} (hP : P.PosDef) (hQ : Q.PosSemidef)
    (h : ∀ v, Rᵀ *ᵥ (Aᵀ *ᵥ v) = 0 → v ⬝ᵥ Q *ᵥ v = 0 → v = 0) : (A * (R * P * Rᵀ) * Aᵀ + Q).PosDef := by
  have p1 := psd_conj (psd_conj hP.posSemidef R) A
  rw [pd_iff]
  refine ⟨psd_symm (p1.add hQ), fun v hv => ?_⟩
  have q1 := ((psd_iff _).1 p1).2 v
  have q2 := ((psd_iff _).1 hQ).2 v
  rw [add_mulVec, dotProduct_add]
  refine lt_of_le_of_ne (add_nonneg q1 q2) fun hz => hv ?_
  refine h v ?_ (by linarith)
  have z1 : v ⬝ᵥ (A * (R * P * Rᵀ) * Aᵀ) *ᵥ v = 0 := by linarith
  by_contra hne
  refine (((pd_iff _).1 hP).2 _ hne).ne' (Eq.trans ?_ z1)
  simp only [← Matrix.mulVec_mulVec]
  rw [Matrix.dotProduct_mulVec v, ← Matrix.mulVec_transpose, Matrix.dotProduct_mulVec (_ *ᵥ v), ← Matrix.mulVec_transpose]

/-- exposures have positive length and start at different times -/
structure DistinctStarts (X : Arr Coord) : Prop where
  pos : ∀ n < X.len, 0 < (X.get n).delta
  ne : ∀ a < X.len, ∀ b < X.len, a ≠ b →
    (X.get a).sortable - (X.get a).delta / 2 ≠ (X.get b).sortable - (X.get b).delta / 2

/-- then something happens strictly after each exposure start -/
theorem DistinctStarts.lt {X : Arr Coord} (h : DistinctStarts X) {j : ℕ} (hj : j + 1 < 2 * X.len) (h0 : (stateCoords X).stateid.get j = 0) :
    (stateCoords X).t.get j < (stateCoords X).t.get (j + 1) := by
  obtain ⟨_, hs, he⟩ := C13_events_sorted X
  refine lt_of_le_of_ne (hs j (j + 1) (Nat.le_succ j) hj) fun heq => ?_
  obtain ⟨a, ha, ⟨hsa, hta⟩ | ⟨hea, _⟩⟩ := he j (by omega)
  · obtain ⟨b, hb, ⟨hsb, htb⟩ | ⟨heb, _⟩⟩ := he (j + 1) hj
    · by_cases hab : a = b
      · have h1 := (isStart_iff ha).1 hsa
        have h2 := (isStart_iff hb).1 hsb
        rw [← hab] at h2
        omega
      · exact h.ne a ha b hb hab (by rw [← hta, ← htb, heq])
    · have := C13_ends_before_starts X b a (j + 1) j heb hsa heq.symm
      omega
  · have := hea.2.2
    omega

/-- **C56.** If exposures start at different times, every predicted covariance is positive definite: all linear systems solved by the
filter and the smoother are regular. -/
theorem C56_systems_posdef (k : SSM) (κ : ℝ → ℝ) (m : ℕ) (hk : DrivenSum SHO.Genuine m k κ) (X : Arr Coord) (hX : Schedule m X)
    (hd : DistinctStarts X) (hQ : k.NoiseOnEvents X) (y R : Arr ℝ) (hR : ∀ i < X.len, 0 < R.get i) (j : ℕ) (hj : j < 2 * X.len) :
    ((k.integratedKalman X y R).get j).PPred.PosDef := by
  have hexp := hk.toSum.transitionIsExp
  have hpsd := SSM.NoiseOnEvents.psd hk.toSum.ok hQ
  induction j with
  | zero =>
    unfold SSM.integratedKalman
    rw [ikf_zero_P]
    exact (pd_conj hk.P_pd (hexp.unit 0)).add_posSemidef hpsd.Q0
  | succ j ih =>
    have ih := ih (by omega)
    have hn := obsid_lt (X := X) (j := j) (by omega)
    have hgap := hpsd.Q j hj
    have hover := hQ j hj
    have hlt := fun h0 => hd.lt hj h0
    unfold SSM.integratedKalman at ih ⊢
    rw [ikf_succ_P]
    by_cases h0 : (stateCoords X).stateid.get j = 0
    · rw [ikf_start _ _ _ _ _ _ _ _ _ h0]
      have hs := sub_pos.2 (hlt h0)
      generalize (stateCoords X).t.get (j + 1) - (stateCoords X).t.get j = s at *
      have hinst := hX.inst _ hn
      rw [← sc_instid (X := X)] at hinst
      exact refill_pd ih hgap (hk.refills _ hinst.1 hinst.2 s hs hover)
    · rw [ikf_end _ _ _ _ _ _ _ _ _ h0]
      exact (pd_conj (update_pd ih (hR _ hn)) (hexp.unit _)).add_posSemidef hgap

/-- **C56, the part that holds.** If exposures have positive length and start at different times, conditioning returns the exact
posterior of the exposure averages. -/
theorem C56_conditioned_partial (k : SSM) (κ : ℝ → ℝ) (m : ℕ) (hk : DrivenSum SHO.Genuine m k κ) (X : Arr Coord) (hX : Schedule m X)
    (hd : DistinctStarts X) (hQ : k.NoiseOnEvents X) (y R : Arr ℝ) (hR : ∀ i < X.len, 0 < R.get i) (n : ℕ) (hn : n < X.len) :
    (k.integratedConditionedAtData X y R).get n =
      (postMean (noisyGram (fun i j : Fin X.len => exposureCov κ (X.get i) (X.get j)) fun i => R.get i) (fun i => y.get i)
        (fun i => exposureCov κ (X.get n) (X.get i)),
       postVar (noisyGram (fun i j : Fin X.len => exposureCov κ (X.get i) (X.get j)) fun i => R.get i)
        (exposureCov κ (X.get n) (X.get n)) (fun i => exposureCov κ (X.get n) (X.get i))) :=
  C11_conditioned k κ m hk.toSum X hX hQ y R hR hd.pos (fun j hj => pd_det (C56_systems_posdef k κ m hk X hX hd hQ y R hR (j + 1) hj)) n hn

theorem threeExposures_distinct : DistinctStarts threeExposures := by
  have hl : threeExposures.len = 3 := rfl
  have e0 : threeExposures.get 0 = .exposure 0 2 0 := rfl
  have e1 : threeExposures.get 1 = .exposure (1/2) 2 1 := rfl
  have e2 : threeExposures.get 2 = .exposure 2 2 0 := rfl
  refine ⟨fun n hn => ?_, fun a ha b hb hab => ?_⟩
  · rw [hl] at hn
    interval_cases n <;> simp [e0, e1, e2, Coord.delta]
  · rw [hl] at ha hb
    interval_cases a <;> interval_cases b <;> simp [e0, e1, e2, Coord.delta, Coord.sortable] at hab ⊢ <;> norm_num

/-- overlapping exposures on two instruments: the reported values are the exact posterior, nothing is singular -/
example (y : Arr ℝ) (n : ℕ) (hn : n < 3) :
    (((integratedExp 2 1 1 "a").sum (integratedMatern32 5 3 4 "b")).integratedConditionedAtData threeExposures y ⟨3, fun _ => 1/10⟩).get n =
      (postMean (noisyGram (fun i j : Fin 3 => exposureCov (fun r => covExp 2 1 r + covMatern32 5 3 r) (threeExposures.get i)
          (threeExposures.get j)) fun _ => 1/10) (fun i => y.get i)
        (fun i => exposureCov (fun r => covExp 2 1 r + covMatern32 5 3 r) (threeExposures.get n) (threeExposures.get i)),
       postVar (noisyGram (fun i j : Fin 3 => exposureCov (fun r => covExp 2 1 r + covMatern32 5 3 r) (threeExposures.get i)
          (threeExposures.get j)) fun _ => 1/10)
        (exposureCov (fun r => covExp 2 1 r + covMatern32 5 3 r) (threeExposures.get n) (threeExposures.get n))
        (fun i => exposureCov (fun r => covExp 2 1 r + covMatern32 5 3 r) (threeExposures.get n) (threeExposures.get i))) := by
  have hk : DrivenSum (fun q => SHO.Genuine q ∧ SHO.NotUnderdamped q) 1 ((integratedExp 2 1 1 "a").sum (integratedMatern32 5 3 4 "b"))
      (fun r => covExp 2 1 r + covMatern32 5 3 r) :=
    .sum (.exp two_pos one_ne_zero le_rfl) (.matern32 (by norm_num) (by norm_num) (by norm_num))
  exact C56_conditioned_partial _ _ 1 (hk.mono fun _ h => h.1) threeExposures threeExposures_schedule threeExposures_distinct
    (fun _ _ => hk.toSum.noise _) y ⟨3, fun _ => 1/10⟩ (fun _ _ => by norm_num) n hn

/-! ### Where it fails -/

/-- the reset of an instrument is singular -/
theorem IntegratedSum.reset_singular {p : ℝ → Prop} {m : ℕ} {k : SSM} {κ : ℝ → ℝ} (h : IntegratedSum p m k κ) (i : ℤ) : (k.reset i).det = 0 := by
  have leaf : ∀ (n : Type) [Fintype n] [DecidableEq n] (m' : ℕ),
      (Matrix.diagonal (Sum.elim (fun _ : n => (1 : ℝ)) fun j => if j = slot m' i then 0 else 1)).det = 0 := by
    intro n _ _ m'
    rw [Matrix.det_diagonal]
    exact Finset.prod_eq_zero (i := Sum.inr (slot m' i)) (Finset.mem_univ _) (by simp)
  induction h with
  | exp hs hm => exact leaf _ _
  | matern32 hs hm => exact leaf _ _
  | matern52 hs hm => exact leaf _ _
  | cosine hs hm => exact leaf _ _
  | sho hw hq ok hm => exact leaf _ _
  | @sum k1 k2 κ1 κ2 _ _ h1 h2 =>
    have : (blockDiag (k1.reset i) (k2.reset i)).det = 0 := by
      unfold blockDiag
      rw [Matrix.det_fromBlocks_zero₂₁, h1, zero_mul]
    exact this

theorem singular_after_reset {n : Type} [Fintype n] [DecidableEq n] {A R P Q : Matrix n n ℝ} (hR : R.det = 0) (hQ : Q = 0) :
    (A * (R * P * Rᵀ) * Aᵀ + Q).det = 0 := by
  rw [hQ, add_zero, det_mul, det_mul, det_mul, det_mul, hR]
  ring

/-- **C56, the part that fails.** If two exposures start at the same time (on whatever instruments), the smoother is given a singular
system to solve: whatever the kernel, the data and the noise, some predicted covariance after the first event has determinant zero. -/
theorem C56_simultaneous_starts_singular (k : SSM) (κ : ℝ → ℝ) (m : ℕ) (hk : IntegratedSum SHO.Genuine m k κ) (X : Arr Coord)
    (y R : Arr ℝ) (a b : ℕ) (ha : a < X.len) (hb : b < X.len) (hab : a ≠ b)
    (h : (X.get a).sortable - (X.get a).delta / 2 = (X.get b).sortable - (X.get b).delta / 2) :
    ∃ j, j + 1 < 2 * X.len ∧ ((k.integratedKalman X y R).get (j + 1)).PPred.det = 0 := by
  wlog hlt : startStep X a < startStep X b generalizing a b
  · refine this b a hb ha (Ne.symm hab) h.symm (lt_of_le_of_ne (not_lt.1 hlt) fun he => hab ?_)
    have h1 := ev_startStep ha
    have h2 := ev_startStep hb
    rw [he] at h2
    omega
  obtain ⟨_, hs, _⟩ := C13_events_sorted X
  have hb' := startStep_lt hb
  refine ⟨startStep X a, by omega, ?_⟩
  have h0 : (stateCoords X).stateid.get (startStep X a) = 0 := ((isStart_iff ha).2 rfl).2.2
  have ta : (stateCoords X).t.get (startStep X a) = (X.get a).sortable - (X.get a).delta / 2 := by
    rw [sc_t, ev_startStep ha, eventTimes_start]; rfl
  have tb : (stateCoords X).t.get (startStep X b) = (X.get b).sortable - (X.get b).delta / 2 := by
    rw [sc_t, ev_startStep hb, eventTimes_start]; rfl
  have hgap : (stateCoords X).t.get (startStep X a + 1) - (stateCoords X).t.get (startStep X a) = 0 := by
    have h1 := hs _ _ (Nat.le_succ (startStep X a)) (by omega)
    have h2 := hs (startStep X a + 1) (startStep X b) (by omega) hb'
    rw [ta] at h1 ⊢
    rw [tb, ← h] at h2
    linarith
  unfold SSM.integratedKalman
  rw [ikf_succ_P, ikf_start _ _ _ _ _ _ _ _ _ h0, hgap]
  exact singular_after_reset (hk.reset_singular _) (noise_zero_of_over hk.ok.zero)

/-- a witness: two instruments, one exposure each, started together -/
example (y R : Arr ℝ) : ∃ j, j + 1 < 4 ∧
    (((integratedMatern32 2 1 1).integratedKalman (Arr.ofList (.time 0) [.exposure 1 2 0, .exposure (3/2) 3 1]) y R).get (j + 1)).PPred.det = 0 :=
  C56_simultaneous_starts_singular _ _ 1 (.matern32 two_pos le_rfl) (Arr.ofList (.time 0) [.exposure 1 2 0, .exposure (3/2) 3 1]) y R 0 1
    (by show 0 < 2; norm_num) (by show 1 < 2; norm_num) (by norm_num) (by
      show (1 : ℝ) - 2 / 2 = 3 / 2 - 3 / 2
      norm_num)

/-- **C56.** `IntegratedCosine` has no process noise, so for it every exposure start leads to a singular system. -/
theorem C56_cosine_singular (scale sigma : ℝ) (hs : 0 < scale) (m : ℕ) (X : Arr Coord) (y R : Arr ℝ) (a : ℕ) (ha : a < X.len)
    (hd : 0 < (X.get a).delta) : ∃ j, j + 1 < 2 * X.len ∧
    (((integratedCosine scale sigma m).integratedKalman X y R).get (j + 1)).PPred.det = 0 := by
  have h1 := start_before_end ha hd
  have h2 := endStep_lt ha
  refine ⟨startStep X a, by omega, ?_⟩
  have h0 : (stateCoords X).stateid.get (startStep X a) = 0 := ((isStart_iff ha).2 rfl).2.2
  have hk : IntegratedSum SHO.Genuine m (integratedCosine scale sigma m) (covCosine scale sigma) := .cosine hs le_rfl
  unfold SSM.integratedKalman
  rw [ikf_succ_P, ikf_start _ _ _ _ _ _ _ _ _ h0]
  refine singular_after_reset (hk.reset_singular _) ?_
  have hq := (C32_shipped_noise _ (IntLeaf.cosine (sigma := sigma) (name := "IntegratedCosine") (m := m) hs)).over
    ((stateCoords X).t.get (startStep X a + 1) - (stateCoords X).t.get (startStep X a))
  have hz : (integratedCosine scale sigma m).L * (integratedCosine scale sigma m).Qc * (integratedCosine scale sigma m).Lᵀ = 0 := by
    have : (integratedCosine scale sigma m).Qc = 0 := by
      have : (!![0] : Matrix (Fin 1) (Fin 1) ℝ) = 0 := by ext i j; fin_cases i; fin_cases j; rfl
      exact this
    rw [this, Matrix.mul_zero, Matrix.zero_mul]
  ext i j
  rw [hq i j]
  simp only [hz, Matrix.mul_zero, Matrix.zero_mul]
  exact intervalIntegral.integral_zero

end Verif
