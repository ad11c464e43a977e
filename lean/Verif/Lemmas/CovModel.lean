import Verif.Lemmas.KernelMatern
import Verif.Lemmas.GM
import Mathlib.Data.Fin.Tuple.Sort

/-! # Stationary covariance models: what `evaluate` computes -/

set_option linter.unusedSectionVars false

namespace Verif
open Matrix
open scoped Kronecker

/-- The part of a kernel that `evaluate` sees, well formed: exponential transitions, and increments with positive
semidefinite covariance. -/
structure SSM.CovModel (k : SSM) (G : Matrix k.n k.n ℝ) : Prop where
  A_exp : ∀ X1 X2 : Coord, k.A X1 X2 = NormedSpace.exp ((X2.sortable - X1.sortable) • G)
  P_psd : k.Pinf.PosSemidef
  incr_psd : ∀ s : ℝ, 0 ≤ s → (k.Pinf - NormedSpace.exp (s • G) * k.Pinf * (NormedSpace.exp (s • G))ᵀ).PosSemidef
  H_const : ∀ X : Coord, k.obsMatrix X = k.obsMatrix (.time 0)
  H_none : ∀ X : Coord, k.obsModel X none = k.obsMatrix X

theorem defaultObs_none {n : Type} (name : String) (H : Coord → Matrix (Fin 1) n ℝ) (X : Coord) :
    defaultObsModel name H X none = H X := by
  unfold defaultObsModel keepFactor; simp

namespace SSM
variable {k k1 k2 : SSM}

theorem CovModel.of_lyapunov {G M : Matrix k.n k.n ℝ}
    (hA : ∀ X1 X2 : Coord, k.A X1 X2 = NormedSpace.exp ((X2.sortable - X1.sortable) • G))
    (hP : k.Pinf.PosSemidef) (hM : M.PosSemidef) (hL : G * k.Pinf + k.Pinf * Gᵀ + M = 0)
    (hH : ∀ X : Coord, k.obsMatrix X = k.obsMatrix (.time 0)) (hn : ∀ X : Coord, k.obsModel X none = k.obsMatrix X) :
    k.CovModel G where
  A_exp := hA
  P_psd := hP
  incr_psd _ hs := lyapunov_psd (psd_symm hP) hM hL hs
  H_const := hH
  H_none := hn

theorem CovModel.sum {G1 : Matrix k1.n k1.n ℝ} {G2 : Matrix k2.n k2.n ℝ} (h1 : k1.CovModel G1) (h2 : k2.CovModel G2) :
    (k1.sum k2).CovModel (blockDiag G1 G2) where
  A_exp X1 X2 := by
    show blockDiag (k1.A X1 X2) (k2.A X1 X2) = _
    rw [h1.A_exp, h2.A_exp]
    exact expm_blockDiag G1 G2 _
  P_psd := blockDiag_psd h1.P_psd h2.P_psd
  incr_psd s hs := by
    have e : blockDiag k1.Pinf k2.Pinf - NormedSpace.exp (s • blockDiag G1 G2) * blockDiag k1.Pinf k2.Pinf *
        (NormedSpace.exp (s • blockDiag G1 G2))ᵀ = blockDiag
        (k1.Pinf - NormedSpace.exp (s • G1) * k1.Pinf * (NormedSpace.exp (s • G1))ᵀ)
        (k2.Pinf - NormedSpace.exp (s • G2) * k2.Pinf * (NormedSpace.exp (s • G2))ᵀ) := by
      rw [← expm_blockDiag, blockDiag_transpose, blockDiag_mul, blockDiag_mul, blockDiag_sub]
    exact Eq.mpr (congrArg Matrix.PosSemidef e) (blockDiag_psd (h1.incr_psd s hs) (h2.incr_psd s hs))
  H_const X := by
    show hstack _ _ = hstack _ _
    rw [h1.H_const, h2.H_const]
  H_none X := by
    show hstack _ _ = hstack _ _
    rw [h1.H_none, h2.H_none]

theorem CovModel.prod {G1 : Matrix k1.n k1.n ℝ} {G2 : Matrix k2.n k2.n ℝ} (h1 : k1.CovModel G1) (h2 : k2.CovModel G2) :
    (k1.prod k2).CovModel (G1 ⊗ₖ (1 : Matrix k2.n k2.n ℝ) + (1 : Matrix k1.n k1.n ℝ) ⊗ₖ G2) where
  A_exp X1 X2 := by
    show k1.A X1 X2 ⊗ₖ k2.A X1 X2 = _
    rw [h1.A_exp, h2.A_exp]
    exact expm_kron G1 G2 _
  P_psd := h1.P_psd.kronecker h2.P_psd
  incr_psd s hs := by
    have e : k1.Pinf ⊗ₖ k2.Pinf -
        NormedSpace.exp (s • (G1 ⊗ₖ (1 : Matrix k2.n k2.n ℝ) + (1 : Matrix k1.n k1.n ℝ) ⊗ₖ G2)) * k1.Pinf ⊗ₖ k2.Pinf *
        (NormedSpace.exp (s • (G1 ⊗ₖ (1 : Matrix k2.n k2.n ℝ) + (1 : Matrix k1.n k1.n ℝ) ⊗ₖ G2)))ᵀ =
        (k1.Pinf - NormedSpace.exp (s • G1) * k1.Pinf * (NormedSpace.exp (s • G1))ᵀ) ⊗ₖ k2.Pinf +
        (NormedSpace.exp (s • G1) * k1.Pinf * (NormedSpace.exp (s • G1))ᵀ) ⊗ₖ
        (k2.Pinf - NormedSpace.exp (s • G2) * k2.Pinf * (NormedSpace.exp (s • G2))ᵀ) := by
      rw [← expm_kron, kron_conj]
      simp only [kron_sub_left, kron_sub_right]
      abel
    exact Eq.mpr (congrArg Matrix.PosSemidef e) (((h1.incr_psd s hs).kronecker h2.P_psd).add
      ((psd_conj h1.P_psd _).kronecker (h2.incr_psd s hs)))
  H_const X := by
    show kronRow _ _ = kronRow _ _
    rw [h1.H_const, h2.H_const]
  H_none X := by
    show kronRow _ _ = kronRow _ _
    rw [h1.H_none, h2.H_none]

theorem psd_smul {n : Type*} [Fintype n] {M : Matrix n n ℝ} (h : M.PosSemidef) {c : ℝ} (hc : 0 ≤ c) : (c • M).PosSemidef := by
  rw [psd_iff] at *
  refine ⟨by rw [transpose_smul, h.1], fun x => ?_⟩
  rw [smul_mulVec, dotProduct_smul, smul_eq_mul]
  exact mul_nonneg hc (h.2 x)

theorem CovModel.scale {G : Matrix k.n k.n ℝ} (h : k.CovModel G) (name : String) {c : ℝ} (hc : 0 ≤ c) :
    (k.scale name c).CovModel G where
  A_exp := h.A_exp
  P_psd := psd_smul h.P_psd hc
  incr_psd s hs := by
    have e : c • k.Pinf - NormedSpace.exp (s • G) * (c • k.Pinf) * (NormedSpace.exp (s • G))ᵀ =
        c • (k.Pinf - NormedSpace.exp (s • G) * k.Pinf * (NormedSpace.exp (s • G))ᵀ) := by
      rw [smul_conj, smul_sub]
    exact Eq.mpr (congrArg Matrix.PosSemidef e) (psd_smul (h.incr_psd s hs) hc)
  H_const := h.H_const
  H_none X := defaultObs_none _ _ _

end SSM

theorem psd_sq_smul {n : Type*} [Fintype n] {M : Matrix n n ℝ} (h : M.PosSemidef) (c : ℝ) : (c ^ 2 • M).PosSemidef :=
  SSM.psd_smul h (sq_nonneg c)

theorem diag2_psd {a b : ℝ} (ha : 0 ≤ a) (hb : 0 ≤ b) : (!![a, 0; 0, b] : Matrix (Fin 2) (Fin 2) ℝ).PosSemidef := by
  rw [psd_iff]
  refine ⟨tr2 .., fun x => ?_⟩
  rw [quad2]
  have := mul_nonneg ha (sq_nonneg (x 0))
  have := mul_nonneg hb (sq_nonneg (x 1))
  nlinarith

/-- every exported kernel class is a covariance model -/
theorem Leaf.covModel {k : SSM} (h : Leaf SHO.Any k) : ∃ G, k.CovModel G := by
  cases h with
  | @exp scale sigma name hs =>
    exact ⟨_, .of_lyapunov (fun X1 X2 => Exp.A_expm scale _) (psd_sq_smul (one1 ▸ Matrix.PosSemidef.one) sigma)
      (psd_conj (scalar_psd (c := 2 * (1 / scale) * sigma ^ 2) (by positivity)) !![1]) (Exp.lyapunov scale sigma)
      (fun _ => rfl) (defaultObs_none _ _)⟩
  | @matern32 scale sigma name hs =>
    have hl : 0 < Matern32.lam scale := by unfold Matern32.lam; positivity
    exact ⟨_, .of_lyapunov (fun X1 X2 => Matern32.A_expm _ _) (psd_sq_smul (diag2_psd zero_le_one (sq_nonneg _)) sigma)
      (psd_conj (scalar_psd (by positivity)) _) (Matern32.lyapunov _ sigma) (fun _ => rfl) (defaultObs_none _ _)⟩
  | @matern52 scale sigma name hs =>
    have hl : 0 < Matern52.lam scale := by unfold Matern52.lam; positivity
    have hP : (Matern52.Pinf (Matern52.lam scale) sigma).PosSemidef := by
      have h1 := (Matern52.Pinf_pd (Matern52.lam scale) 1 hl.ne' one_ne_zero).posSemidef
      have e : Matern52.Pinf (Matern52.lam scale) sigma = sigma ^ 2 • Matern52.Pinf (Matern52.lam scale) 1 := by
        unfold Matern52.Pinf; rw [one_pow, one_smul]
      rw [e]; exact psd_sq_smul h1 sigma
    exact ⟨_, .of_lyapunov (fun X1 X2 => Matern52.A_expm _ _) hP
      (psd_conj (scalar_psd (by positivity)) _) (Matern52.lyapunov _ sigma) (fun _ => rfl) (defaultObs_none _ _)⟩
  | @matern d scale sigma hd hs =>
    have hl := Matern.lam_pos hd hs
    exact ⟨_, .of_lyapunov (fun _ _ => rfl) (Matern.P_psd hl) (Matern.noise_psd hl) (Matern.P_lyapunov hl)
      (fun _ => rfl) (defaultObs_none _ _)⟩
  | @cosine scale sigma name hs =>
    exact ⟨_, .of_lyapunov (M := 0) (fun X1 X2 => rotation_expm _ _) (psd_sq_smul Matrix.PosSemidef.one sigma)
      Matrix.PosSemidef.zero (by rw [add_zero]; exact rotation_lyapunov _ _) (fun _ => rfl) (defaultObs_none _ _)⟩
  | @expSineSquared period gamma sigma order name hp hg =>
    have h := ExpSineSquared.lyapunov period gamma sigma order name
    unfold SSM.Lyapunov at h
    have hQ : (Verif.expSineSquared period gamma sigma order name).L * (Verif.expSineSquared period gamma sigma order name).Qc *
        (Verif.expSineSquared period gamma sigma order name).Lᵀ = 0 := by
      have : (Verif.expSineSquared period gamma sigma order name).Qc = 0 := ExpSineSquared.sumTerms_Qc _ _ _
      rw [this, Matrix.mul_zero, Matrix.zero_mul]
    refine ⟨_, .of_lyapunov (M := 0) (ExpSineSquared.sumTerms_transition _ _ _)
      (psd_sq_smul (ExpSineSquared.sumTerms_regular _ _ _).P_psd sigma) Matrix.PosSemidef.zero ?_
      (ExpSineSquared.sumTerms_obs _ _ _) (defaultObs_none _ _)⟩
    rw [hQ] at h
    exact h
  | @sho w q sigma name hw hq _ =>
    have hP : (SHO.Pinf w sigma).PosSemidef := psd_sq_smul (diag2_psd zero_le_one (sq_nonneg _)) sigma
    by_cases hc : SHO.isCritical q
    · exact ⟨SHO.F w 0.5, .of_lyapunov (fun X1 X2 => by
        show SHO.A w q _ = _
        unfold SHO.A
        rw [if_pos hc]
        exact SHO.Acrit_expm w _) hP (psd_conj (scalar_psd (by positivity)) _) (SHO.lyapunov sigma w 0.5)
        (fun _ => rfl) (defaultObs_none _ _)⟩
    · exact ⟨SHO.F w q, .of_lyapunov (fun X1 X2 => SHO.A_expm hw.ne' hq (Or.inr hc) _) hP
        (psd_conj (scalar_psd (by positivity)) _) (SHO.lyapunov sigma w q) (fun _ => rfl) (defaultObs_none _ _)⟩

theorem Combos.covModel {k : SSM} (h : Combos (Leaf SHO.Any) k) : ∃ G, k.CovModel G := by
  induction h with
  | leaf h => exact h.covModel
  | sum _ _ h1 h2 => exact ⟨_, h1.choose_spec.sum h2.choose_spec⟩
  | prod _ _ h1 h2 => exact ⟨_, h1.choose_spec.prod h2.choose_spec⟩
  | scale hc _ h => exact ⟨_, h.choose_spec.scale _ hc⟩

namespace SSM
variable {k : SSM} {G : Matrix k.n k.n ℝ}

/-- the covariance function of a covariance model -/
noncomputable def covAt (k : SSM) (G : Matrix k.n k.n ℝ) (r : ℝ) : ℝ :=
  (k.obsMatrix (.time 0) * NormedSpace.exp (r • G) * k.Pinf * (k.obsMatrix (.time 0))ᵀ) 0 0

theorem CovModel.evaluate_eq (h : k.CovModel G) (X1 X2 : Coord) :
    k.evaluate X1 X2 = k.covAt G |X1.sortable - X2.sortable| := by
  unfold evaluate
  simp only [h.H_none, h.H_const X1, h.H_const X2, h.A_exp]
  split_ifs with hlt
  · rw [abs_of_neg (by linarith), neg_sub]
    unfold covAt
    have e : k.obsMatrix (.time 0) * k.Pinf * (NormedSpace.exp ((X2.sortable - X1.sortable) • G))ᵀ *
        (k.obsMatrix (.time 0))ᵀ = (k.obsMatrix (.time 0) * NormedSpace.exp ((X2.sortable - X1.sortable) • G) * k.Pinf *
        (k.obsMatrix (.time 0))ᵀ)ᵀ := by
      simp only [transpose_mul, transpose_transpose, psd_symm h.P_psd, Matrix.mul_assoc]
    rw [e]
    rfl
  · rw [abs_of_nonneg (by linarith)]
    rfl

/-- the Gauss-Markov process of a covariance model -/
noncomputable def CovModel.gm (h : k.CovModel G) : GM k.n where
  A s t := NormedSpace.exp ((t - s) • G)
  P _ := k.Pinf
  A_self t := by rw [sub_self, expm_zero]
  A_comp s t u _ _ := by rw [← expm_add]; congr 2; ring
  P_symm _ := psd_symm h.P_psd

end SSM

/-- quadratic forms over a Gauss-Markov process with positive semidefinite increments are non-negative -/
theorem GM.quad_nonneg {n : Type} [Fintype n] [DecidableEq n] (g : GM n) (hP : ∀ t, (g.P t).PosSemidef)
    (hQ : ∀ s t, s ≤ t → (g.Q s t).PosSemidef) (N : ℕ) (τ : ℕ → ℝ) (hτ : ∀ i j, i ≤ j → j < N → τ i ≤ τ j)
    (c : ℕ → n → ℝ) :
    0 ≤ g.B 0 (∑ i ∈ Finset.range N, ∑ a, c i a • GM.x (τ i) a) (∑ i ∈ Finset.range N, ∑ a, c i a • GM.x (τ i) a) := by
  have hform : ∀ (M : Matrix n n ℝ) (v : n → GM.Space n) (u : n → ℝ), (∀ a b, g.B 0 (v a) (v b) = M a b) →
      g.B 0 (∑ a, u a • v a) (∑ a, u a • v a) = u ⬝ᵥ M *ᵥ u := by
    intro M v u hv
    simp only [map_sum, LinearMap.sum_apply, map_smul, LinearMap.smul_apply, smul_eq_mul, hv, dotProduct, mulVec, Finset.mul_sum]
    rw [Finset.sum_comm]
    exact Finset.sum_congr rfl fun a _ => Finset.sum_congr rfl fun b _ => by ring
  induction N generalizing c with
  | zero => simp
  | succ N ih =>
    rcases Nat.eq_zero_or_pos N with h0 | hN
    · subst h0
      rw [Finset.sum_range_one, hform (g.P (τ 0)) _ _ (fun a b => by rw [g.B_xx, g.C_self])]
      exact ((psd_iff _).1 (hP _)).2 _
    · -- split off the last state
      obtain ⟨m, rfl⟩ : ∃ m, N = m + 1 := ⟨N - 1, by omega⟩
      have hle : τ m ≤ τ (m + 1) := hτ m (m + 1) (Nat.le_succ m) (by omega)
      set c' : ℕ → n → ℝ := fun i => if i = m then c m + c (m + 1) ᵥ* g.A (τ m) (τ (m + 1)) else c i with hc'
      have hlast : ∑ a, c (m + 1) a • GM.x (τ (m + 1)) a =
          ∑ a, (c (m + 1) ᵥ* g.A (τ m) (τ (m + 1))) a • GM.x (τ m) a + ∑ a, c (m + 1) a • g.q (τ m) (τ (m + 1)) a := by
        simp only [g.x_eq (τ m) (τ (m + 1)), smul_add, Finset.sum_add_distrib]
        congr 1
        simp only [lin, vecMul, dotProduct, Finset.smul_sum, Finset.sum_smul, smul_smul]
        rw [Finset.sum_comm]
      have hsum : ∑ i ∈ Finset.range (m + 1 + 1), ∑ a, c i a • GM.x (τ i) a =
          ∑ i ∈ Finset.range (m + 1), ∑ a, c' i a • GM.x (τ i) a + ∑ a, c (m + 1) a • g.q (τ m) (τ (m + 1)) a := by
        rw [Finset.sum_range_succ, hlast, ← add_assoc, Finset.sum_range_succ, Finset.sum_range_succ]
        congr 1
        have h1 : ∑ i ∈ Finset.range m, ∑ a, c' i a • GM.x (τ i) a = ∑ i ∈ Finset.range m, ∑ a, c i a • GM.x (τ i) a :=
          Finset.sum_congr rfl fun i hi => by
            rw [Finset.mem_range] at hi
            simp only [hc', if_neg (show i ≠ m by omega)]
        rw [h1, add_assoc]
        congr 1
        simp only [hc', if_true, Pi.add_apply, add_smul, Finset.sum_add_distrib]
      have horth : g.B 0 (∑ a, c (m + 1) a • g.q (τ m) (τ (m + 1)) a)
          (∑ i ∈ Finset.range (m + 1), ∑ a, c' i a • GM.x (τ i) a) = 0 := by
        simp only [map_sum, LinearMap.sum_apply, map_smul, LinearMap.smul_apply]
        refine Finset.sum_eq_zero fun i hi => Finset.sum_eq_zero fun a _ => ?_
        rw [Finset.mem_range] at hi
        rw [Finset.sum_eq_zero, smul_zero]
        intro b _
        rw [g.B_qx 0 (hτ i m (by omega) (by omega)) hle, smul_zero]
      rw [hsum, map_add, map_add, LinearMap.add_apply, LinearMap.add_apply, horth, g.B_symm 0 _ (∑ a, _), horth,
        hform (g.Q (τ m) (τ (m + 1))) _ _ (fun a b => g.B_qq 0 hle a b)]
      have := ih (fun i j hij hj => hτ i j hij (by omega)) c'
      have := ((psd_iff _).1 (hQ _ _ hle)).2 (c (m + 1))
      linarith

/-- covariance matrices of a covariance model are positive semidefinite -/
theorem SSM.CovModel.gram_psd {k : SSM} {G : Matrix k.n k.n ℝ} (h : k.CovModel G) {N : ℕ} (X : Fin N → Coord) :
    (Matrix.of fun i j => k.evaluate (X i) (X j)).PosSemidef := by
  -- sorted case
  have key : ∀ Y : Fin N → Coord, Monotone (fun i => (Y i).sortable) →
      (Matrix.of fun i j => k.evaluate (Y i) (Y j)).PosSemidef := by
    intro Y hY
    rw [psd_iff]
    constructor
    · ext i j
      simp only [transpose_apply, Matrix.of_apply, h.evaluate_eq]
      rw [abs_sub_comm]
    · intro v
      set H := k.obsMatrix (.time 0)
      set τ : ℕ → ℝ := fun i => if hi : i < N then (Y ⟨i, hi⟩).sortable else 0 with hτ
      set c : ℕ → k.n → ℝ := fun i a => if hi : i < N then v ⟨i, hi⟩ * H 0 a else 0 with hc
      have hq := h.gm.quad_nonneg (fun _ => h.P_psd)
        (fun s t hst => h.incr_psd (t - s) (by linarith)) N τ
        (fun i j hij hj => by
          simp only [hτ, dif_pos hj, dif_pos (lt_of_le_of_lt hij hj)]
          exact hY (show (⟨i, _⟩ : Fin N) ≤ ⟨j, hj⟩ from hij)) c
      have hsum : ∑ i ∈ Finset.range N, ∑ a, c i a • GM.x (τ i) a =
          ∑ i : Fin N, v i • ∑ a, H 0 a • GM.x (n := k.n) (Y i).sortable a := by
        rw [Finset.sum_range]
        refine Finset.sum_congr rfl fun i _ => ?_
        simp only [hc, hτ, dif_pos i.2, Finset.smul_sum, smul_smul]
      have hB : ∀ i j : Fin N, h.gm.B 0 (∑ a, H 0 a • GM.x (n := k.n) (Y i).sortable a)
          (∑ a, H 0 a • GM.x (n := k.n) (Y j).sortable a) = k.evaluate (Y i) (Y j) := by
        intro i j
        have e : h.gm.B 0 (∑ a, H 0 a • GM.x (n := k.n) (Y i).sortable a)
          (∑ a, H 0 a • GM.x (n := k.n) (Y j).sortable a) = (H * h.gm.C (Y i).sortable (Y j).sortable * Hᵀ) 0 0 := by
          simp only [map_sum, LinearMap.sum_apply, map_smul, LinearMap.smul_apply, smul_eq_mul, h.gm.B_xx,
            Matrix.mul_apply, transpose_apply]
          refine Finset.sum_congr rfl fun b _ => ?_
          rw [mul_comm (H 0 b)]
        rw [e, h.evaluate_eq]
        unfold SSM.covAt
        rcases le_total (Y i).sortable (Y j).sortable with hle | hle
        · rw [h.gm.C_of_le hle, abs_of_nonpos (by linarith), neg_sub]
          have e2 : H * (k.Pinf * (NormedSpace.exp (((Y j).sortable - (Y i).sortable) • G))ᵀ) * Hᵀ =
              (H * NormedSpace.exp (((Y j).sortable - (Y i).sortable) • G) * k.Pinf * Hᵀ)ᵀ := by
            simp only [transpose_mul, transpose_transpose, psd_symm h.P_psd, Matrix.mul_assoc]
          exact congrFun (congrFun e2 0) 0
        · rw [h.gm.C_of_ge hle, abs_of_nonneg (by linarith)]
          have e2 : H * (NormedSpace.exp (((Y i).sortable - (Y j).sortable) • G) * k.Pinf) * Hᵀ =
              H * NormedSpace.exp (((Y i).sortable - (Y j).sortable) • G) * k.Pinf * Hᵀ := by
            simp only [Matrix.mul_assoc]
          exact congrFun (congrFun e2 0) 0
      rw [hsum] at hq
      generalize hee : (fun i : Fin N => ∑ a, H 0 a • GM.x (n := k.n) (Y i).sortable a) = ee at hq hB
      have hB' : ∀ i j, h.gm.B 0 (ee i) (ee j) = k.evaluate (Y i) (Y j) := by
        subst hee; exact hB
      have hq' : 0 ≤ h.gm.B 0 (∑ i, v i • ee i) (∑ i, v i • ee i) := by
        subst hee; exact hq
      simp only [map_sum, LinearMap.sum_apply, map_smul, LinearMap.smul_apply, smul_eq_mul, hB'] at hq'
      simp only [dotProduct, mulVec, Matrix.of_apply, Finset.mul_sum]
      refine hq'.trans (le_of_eq ?_)
      rw [Finset.sum_comm]
      refine Finset.sum_congr rfl fun i _ => ?_
      rw [Finset.mul_sum]
      exact Finset.sum_congr rfl fun j _ => by ring
  -- general case: sort the points
  let σ := Tuple.sort (fun i => (X i).sortable)
  have h1 := key (X ∘ σ) (Tuple.monotone_sort (fun i => (X i).sortable))
  have h2 := h1.submatrix σ.symm
  have e : (Matrix.of fun i j => k.evaluate (X i) (X j)) =
      (Matrix.of fun i j => k.evaluate ((X ∘ σ) i) ((X ∘ σ) j)).submatrix σ.symm σ.symm := by
    ext i j
    simp [Matrix.submatrix_apply]
  rw [e]
  exact h2

end Verif
