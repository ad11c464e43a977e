import Verif.Lemmas.RowExact
import Verif.Lemmas.MatDeriv
import Verif.Spec.StateProcess
import Verif.Spec.Shipped

/-!
# Covariances of the stationary state process, and their derivatives
-/

namespace Verif
open Matrix Spec

theorem hasDerivAt_glue {f g e : ℝ → ℝ} {a t : ℝ} (hf : ∀ x, f x = if x < t then e x else g x) (he : HasDerivAt e a t)
    (hg : HasDerivAt g a t) (h : e t = g t) : HasDerivAt f a t := by
  have h1 : HasDerivWithinAt f a (Set.Iic t) t := he.hasDerivWithinAt.congr (fun x hx => by
    rw [hf]
    rcases (show x ≤ t from hx).lt_or_eq with hx | rfl
    · rw [if_pos hx]
    · rw [if_neg (lt_irrefl _), h]) (by rw [hf, if_neg (lt_irrefl _), h])
  have h2 : HasDerivWithinAt f a (Set.Ici t) t := hg.hasDerivWithinAt.congr (fun x hx => by
    rw [hf, if_neg (not_lt.2 hx)]) (by rw [hf, if_neg (lt_irrefl _)])
  have := h1.union h2
  rw [Set.Iic_union_Ici] at this
  exact this.hasDerivAt Filter.univ_mem

section
variable {n : Type*} [Fintype n] [DecidableEq n]

theorem stationaryCov_transpose {F P : Matrix n n ℝ} (hP : Pᵀ = P) (s t : ℝ) : (stationaryCov F P s t)ᵀ = stationaryCov F P t s := by
  unfold stationaryCov
  split_ifs with h1 h2
  · exact absurd h2 (lt_asymm h1)
  · rw [transpose_mul, transpose_transpose, hP]
  · rw [transpose_mul, hP]
  · obtain rfl : s = t := le_antisymm (not_lt.1 ‹¬ t < s›) (not_lt.1 h1)
    rw [sub_self, expm_zero, Matrix.one_mul, hP]

theorem stationaryCov_self (F P : Matrix n n ℝ) (s : ℝ) : stationaryCov F P s s = P := by
  unfold stationaryCov
  rw [if_neg (lt_irrefl _), sub_self, expm_zero, Matrix.one_mul]

/-- a functional of the state into which no noise enters has a derivative: apply the design matrix -/
theorem stationaryCov_deriv {F P : Matrix n n ℝ} {h : Matrix (Fin 1) n ℝ} (hh : h * (F * P + P * Fᵀ) = 0) (v : Matrix n (Fin 1) ℝ) (s t : ℝ) :
    HasDerivAt (fun s => (h * stationaryCov F P s t * v) 0 0) ((h * F * stationaryCov F P s t * v) 0 0) s := by
  have hP : -(h * P * Fᵀ) = h * F * P := by
    rw [Matrix.mul_add, ← Matrix.mul_assoc, ← Matrix.mul_assoc] at hh
    exact neg_eq_of_add_eq_zero_left hh
  -- for s ≥ t
  have hg : ∀ s, HasDerivAt (fun s => (h * (NormedSpace.exp ((s - t) • F) * P) * v) 0 0) ((h * F * (NormedSpace.exp ((s - t) • F) * P) * v) 0 0) s := by
    intro s
    have h0 : MDeriv (fun s => NormedSpace.exp ((s - t) • F)) (F * NormedSpace.exp ((s - t) • F)) s := fun i j => by
      have := (expm_deriv' F (s - t) i j).comp s ((hasDerivAt_id s).sub_const t)
      rwa [mul_one] at this
    have h1 := ((MDeriv.const (t := s) h).mul (h0.mul (MDeriv.const (t := s) P))).mul (MDeriv.const (t := s) v)
    refine (h1.congr ?_) 0 0
    simp only [Matrix.zero_mul, Matrix.mul_zero, add_zero, zero_add, Matrix.mul_assoc]
  -- for s ≤ t
  have he : ∀ s, HasDerivAt (fun s => (h * (P * (NormedSpace.exp ((t - s) • F))ᵀ) * v) 0 0)
      ((h * F * (P * (NormedSpace.exp ((t - s) • F))ᵀ) * v) 0 0) s := by
    intro s
    have h0 : MDeriv (fun s => NormedSpace.exp ((t - s) • F)) (-(NormedSpace.exp ((t - s) • F) * F)) s :=
      MDeriv.comp_const_sub (A := fun s => NormedSpace.exp (s • F)) (expm_deriv F (t - s))
    have h1 := ((MDeriv.const (t := s) h).mul ((MDeriv.const (t := s) P).mul h0.transpose)).mul (MDeriv.const (t := s) v)
    refine (h1.congr ?_) 0 0
    simp only [Matrix.zero_mul, Matrix.mul_zero, add_zero, zero_add]
    rw [transpose_neg, transpose_mul, Matrix.mul_neg, Matrix.mul_neg, ← Matrix.mul_assoc, ← Matrix.mul_assoc, ← Matrix.neg_mul, hP,
      Matrix.mul_assoc (h * F)]
  rcases lt_trichotomy s t with hst | rfl | hst
  · have e : (fun s => (h * stationaryCov F P s t * v) 0 0) =ᶠ[nhds s] fun s => (h * (P * (NormedSpace.exp ((t - s) • F))ᵀ) * v) 0 0 := by
      filter_upwards [Iio_mem_nhds hst] with x hx
      unfold stationaryCov
      rw [if_pos (show x < t from hx)]
    rw [show stationaryCov F P s t = P * (NormedSpace.exp ((t - s) • F))ᵀ from if_pos hst]
    exact (he s).congr_of_eventuallyEq e
  · refine hasDerivAt_glue (t := s) (g := fun x => (h * (NormedSpace.exp ((x - s) • F) * P) * v) 0 0)
      (e := fun x => (h * (P * (NormedSpace.exp ((s - x) • F))ᵀ) * v) 0 0) (fun x => ?_) ?_ ?_ ?_
    · unfold stationaryCov
      split_ifs <;> rfl
    · rw [stationaryCov_self]
      have := he s
      rwa [sub_self, expm_zero, transpose_one, Matrix.mul_one] at this
    · rw [stationaryCov_self]
      have := hg s
      rwa [sub_self, expm_zero, Matrix.one_mul] at this
    · simp only [sub_self, expm_zero, transpose_one, Matrix.mul_one, Matrix.one_mul]
  · have e : (fun s => (h * stationaryCov F P s t * v) 0 0) =ᶠ[nhds s] fun s => (h * (NormedSpace.exp ((s - t) • F) * P) * v) 0 0 := by
      filter_upwards [Ioi_mem_nhds hst] with x hx
      unfold stationaryCov
      rw [if_neg (lt_asymm (show t < x from hx))]
    rw [show stationaryCov F P s t = NormedSpace.exp ((s - t) • F) * P from if_neg (lt_asymm hst)]
    exact (hg s).congr_of_eventuallyEq e

/-- a symmetric matrix is determined by its quadratic form -/
theorem eq_of_rows {P M : Matrix n n ℝ} (hP : Pᵀ = P) (hM : Mᵀ = M)
    (h : ∀ w : Matrix (Fin 1) n ℝ, (w * P * wᵀ) 0 0 = (w * M * wᵀ) 0 0) : P = M := by
  have quad : ∀ (A : Matrix n n ℝ) (x : n → ℝ), ((Matrix.of fun _ : Fin 1 => x) * A * (Matrix.of fun _ : Fin 1 => x)ᵀ) 0 0 = x ⬝ᵥ A *ᵥ x := by
    intro A x
    rw [Matrix.mul_assoc, Matrix.mul_apply]
    rfl
  have hq : ∀ x : n → ℝ, x ⬝ᵥ P *ᵥ x = x ⬝ᵥ M *ᵥ x := fun x => by rw [← quad, ← quad]; exact h _
  ext a b
  have h1 := hq (Pi.single a 1 + Pi.single b 1)
  have h2 := hq (Pi.single a 1)
  have h3 := hq (Pi.single b 1)
  have hs : ∀ {A : Matrix n n ℝ}, Aᵀ = A → A b a = A a b := fun {A} hA => by
    have := congrFun (congrFun hA a) b
    rwa [transpose_apply] at this
  simp only [Matrix.mulVec_add, dotProduct_add, add_dotProduct, Matrix.mulVec_single_one, single_one_dotProduct, Matrix.col_apply] at h1 h2 h3
  have e1 := hs hP
  have e2 := hs hM
  linarith
end

variable {k : SSM}

theorem SSM.rowCov_stationary (hA : k.TransitionIsExp) (w : Matrix (Fin 1) k.n ℝ) (Xs X : Coord) :
    k.rowCov w Xs X = (w * stationaryCov k.F k.Pinf Xs.sortable X.sortable * (k.obsModel X none)ᵀ) 0 0 := by
  unfold SSM.rowCov stationaryCov
  rw [hA, hA]
  split_ifs <;> simp only [Matrix.mul_assoc]

theorem SSM.Proper.rowCov_evaluate (hk : k.Proper) (Xs X : Coord) : k.rowCov (k.obsModel Xs none) Xs X = k.evaluate Xs X :=
  (hk.rowCov_eq 0 _ Xs X).trans (hk.evaluate_eq 0 Xs X).symm

theorem SSM.Proper.predicted_symm (hk : k.Proper) {X : Arr Coord} {y R : Arr ℝ} (hX : Sorted (X.map Coord.sortable)) (hN : 0 < X.len)
    (hS : ∀ i < X.len, ((k.kalman (X.map Coord.sortable) y R).get i).S 0 0 ≠ 0)
    (hP : ∀ i < X.len, IsUnit ((k.kalman (X.map Coord.sortable) y R).get i).PPred.det) (x : ℝ) :
    (ssPredictPoint k.At k.Qt k.Pinf (X.map Coord.sortable)
      (k.condition (X.map Coord.sortable) y R).1 (k.condition (X.map Coord.sortable) y R).2 x).Pᵀ =
    (ssPredictPoint k.At k.Qt k.Pinf (X.map Coord.sortable)
      (k.condition (X.map Coord.sortable) y R).1 (k.condition (X.map Coord.sortable) y R).2 x).P := by
  obtain ⟨Xh, h⟩ := predict_est (t := X.map Coord.sortable) (R := R) (y := y) (H := k.Ht) hk.stat hX hN hS hP x
  exact h.symm (hk.stat.gm.B_symm R.get)

end Verif
