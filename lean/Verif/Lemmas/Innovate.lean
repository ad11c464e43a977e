import Verif.Lemmas.Run
import Verif.Lemmas.GaussianLaw

/-!
# Residuals which diagonalise the quadratic form of the data are one-step-ahead prediction errors
-/

namespace Verif
open Matrix Spec

/-- the indices before `i` -/
def before {N : ℕ} (i : Fin N) (j : Fin i) : Fin N := ⟨j, j.2.trans i.2⟩

theorem before_lt {N : ℕ} (i : Fin N) (j : Fin i) : before i j < i := j.2

theorem before_inj {N : ℕ} (i : Fin N) : Function.Injective (before i) := fun a b h => Fin.ext (by simpa [before] using h)

theorem eq_before {N : ℕ} {i j : Fin N} (h : j < i) : ∃ l, before i l = j := ⟨⟨j, h⟩, rfl⟩

theorem sum_before {N : ℕ} (i : Fin N) (f : Fin N → ℝ) (h : ∀ j, i < j → f j = 0) : ∑ j, f j = f i + ∑ j : Fin i, f (before i j) := by
  rw [← Finset.add_sum_erase _ f (Finset.mem_univ i)]
  congr 1
  symm
  refine Finset.sum_of_injOn (before i) (before_inj i).injOn (fun j _ => ?_) (fun j hj hn => ?_) fun j _ => rfl
  · exact Finset.mem_coe.2 (Finset.mem_erase.2 ⟨(before_lt i j).ne, Finset.mem_univ _⟩)
  · rcases lt_trichotomy j i with hlt | heq | hgt
    · obtain ⟨l, hl⟩ := eq_before hlt
      exact absurd ⟨l, Finset.mem_coe.2 (Finset.mem_univ _), hl⟩ hn
    · exact absurd heq (Finset.mem_erase.1 hj).1
    · exact h j hgt

theorem symm_zero_of_quadratic {ι : Type*} [Fintype ι] [DecidableEq ι] {M : Matrix ι ι ℝ} (hM : Mᵀ = M) (h : ∀ z, z ⬝ᵥ M *ᵥ z = 0) : M = 0 := by
  have hii : ∀ i, M i i = 0 := fun i => by simpa using h (Pi.single i 1)
  ext i j
  have e := h (Pi.single i 1 + Pi.single j 1)
  have hs : M j i = M i j := congrFun (congrFun hM i) j
  simp only [mulVec_add, add_dotProduct, dotProduct_add, mulVec_single_one, single_one_dotProduct, Matrix.col_apply, hii, hs] at e
  show M i j = 0
  linarith

theorem symm_eq_of_quadratic {ι : Type*} [Fintype ι] [DecidableEq ι] {M M' : Matrix ι ι ℝ} (hM : Mᵀ = M) (hM' : M'ᵀ = M')
    (h : ∀ z, z ⬝ᵥ M *ᵥ z = z ⬝ᵥ M' *ᵥ z) : M = M' := by
  refine sub_eq_zero.1 (symm_zero_of_quadratic (by rw [transpose_sub, hM, hM']) fun z => ?_)
  rw [sub_mulVec, dotProduct_sub, h, sub_self]

section
variable {N : ℕ} {K L : Matrix (Fin N) (Fin N) ℝ} {S : Fin N → ℝ}

/-- the rows of `L` decorrelate -/
theorem decorrelate {ι : Type*} [Fintype ι] [DecidableEq ι] {K L : Matrix ι ι ℝ} {S : ι → ℝ} (hK : K.PosDef) (hS : ∀ i, S i ≠ 0)
    (hq : ∀ z, z ⬝ᵥ K⁻¹ *ᵥ z = ∑ i, (L *ᵥ z) i ^ 2 / S i) :
    L * K * Lᵀ = diagonal S := by
  have hsym : Kᵀ = K := by
    have := hK.isHermitian
    rwa [IsHermitian, conjTranspose_eq_transpose_of_trivial] at this
  have hKu : IsUnit K.det := isUnit_iff_ne_zero.mpr hK.det_pos.ne'
  have hinv : K⁻¹ = Lᵀ * diagonal (fun i => (S i)⁻¹) * L := by
    refine symm_eq_of_quadratic (by rw [transpose_nonsing_inv, hsym]) ?_ fun z => ?_
    · rw [transpose_mul, transpose_mul, transpose_transpose, diagonal_transpose, Matrix.mul_assoc]
    · rw [hq, ← mulVec_mulVec, ← mulVec_mulVec, dotProduct_mulVec, vecMul_transpose]
      refine Finset.sum_congr rfl fun i _ => ?_
      rw [mulVec_diagonal]
      ring
  have h1 : K * Lᵀ * diagonal (fun i => (S i)⁻¹) * L = 1 := by
    rw [Matrix.mul_assoc, Matrix.mul_assoc, ← Matrix.mul_assoc Lᵀ, ← hinv, Matrix.mul_nonsing_inv _ hKu]
  have h2 := mul_eq_one_comm.1 h1
  have hd : diagonal (fun i => (S i)⁻¹) * diagonal S = 1 := by
    rw [diagonal_mul_diagonal, ← diagonal_one]
    congr 1
    funext i
    exact inv_mul_cancel₀ (hS i)
  calc L * K * Lᵀ = L * (K * Lᵀ * diagonal (fun i => (S i)⁻¹)) * diagonal S := by
        rw [Matrix.mul_assoc, Matrix.mul_assoc, Matrix.mul_assoc (K * Lᵀ), hd, Matrix.mul_one]
    _ = diagonal S := by rw [h2, Matrix.one_mul]

/-- rows of a triangular matrix which decorrelate are orthogonal to everything earlier -/
theorem orthogonal (hd : L * K * Lᵀ = diagonal S) (h1 : ∀ i, L i i = 1) (h0 : ∀ i j, i < j → L i j = 0) :
    (∀ i j, j < i → (L * K) i j = 0) ∧ ∀ i, (L * K) i i = S i := by
  have e : ∀ i j, (L * K) i j + ∑ l : Fin j, (L * K) i (before j l) * L j (before j l) = diagonal S i j := by
    intro i j
    have e1 : (L * K * Lᵀ) i j = ∑ l, (L * K) i l * L j l := Matrix.mul_apply
    rw [← hd, e1, sum_before j _ fun l hl => by rw [h0 j l hl, mul_zero], h1, mul_one]
  have key : ∀ n : ℕ, ∀ i j : Fin N, (j : ℕ) < n → j < i → (L * K) i j = 0 := by
    intro n
    induction n with
    | zero => intro i j h; omega
    | succ n ih =>
      intro i j hj hij
      have := e i j
      rw [diagonal_apply_ne _ hij.ne', Finset.sum_eq_zero fun l _ => by
        rw [ih i (before j l) (lt_of_lt_of_le (before_lt j l) (Nat.lt_succ_iff.1 hj)) ((before_lt j l).trans hij), zero_mul], add_zero] at this
      exact this
  refine ⟨fun i j h => key _ i j (Nat.lt_succ_self _) h, fun i => ?_⟩
  have := e i i
  rwa [diagonal_apply_eq, Finset.sum_eq_zero fun l _ => by rw [key _ i (before i l) (Nat.lt_succ_self _) (before_lt i l), zero_mul],
    add_zero] at this

theorem one_step_of_triangular (hK : K.PosDef) (hS : ∀ i, S i ≠ 0) (h1 : ∀ i, L i i = 1) (h0 : ∀ i j, i < j → L i j = 0)
    (hq : ∀ z, z ⬝ᵥ K⁻¹ *ᵥ z = ∑ i, (L *ᵥ z) i ^ 2 / S i) (i : Fin N) :
    (∀ z, (L *ᵥ z) i = z i - postMean (K.submatrix (before i) (before i)) (fun j => z (before i j)) fun j => K i (before i j)) ∧
    S i = postVar (K.submatrix (before i) (before i)) (K i i) fun j => K i (before i j) := by
  obtain ⟨ho, hd⟩ := orthogonal (decorrelate hK hS hq) h1 h0
  have hsym : ∀ a b, K a b = K b a := by
    have := hK.isHermitian
    rw [IsHermitian, conjTranspose_eq_transpose_of_trivial] at this
    exact fun a b => congrFun (congrFun this b) a
  have hB : (K.submatrix (before i) (before i)).PosDef := hK.submatrix (before_inj i)
  have hBu : IsUnit (K.submatrix (before i) (before i)).det := isUnit_iff_ne_zero.mpr hB.det_pos.ne'
  have hLK : ∀ j, (L * K) i j = K i j + ∑ l : Fin i, L i (before i l) * K (before i l) j := fun j => by
    rw [Matrix.mul_apply, sum_before i _ fun l hl => by rw [h0 i l hl, zero_mul], h1, one_mul]
  have hw : (K.submatrix (before i) (before i)) *ᵥ (fun l => -L i (before i l)) = fun j => K i (before i j) := by
    funext j
    have := ho i _ (before_lt i j)
    rw [hLK] at this
    have e : ((K.submatrix (before i) (before i)) *ᵥ fun l => -L i (before i l)) j = -∑ l : Fin i, L i (before i l) * K (before i l) (before i j) := by
      show (∑ l : Fin i, K (before i j) (before i l) * -L i (before i l) : ℝ) = _
      rw [← Finset.sum_neg_distrib]
      refine Finset.sum_congr rfl fun l _ => ?_
      rw [hsym (before i j)]
      ring
    rw [e]
    linarith
  have hwi : (K.submatrix (before i) (before i))⁻¹ *ᵥ (fun j => K i (before i j)) = fun l => -L i (before i l) := by
    rw [← hw, mulVec_mulVec, Matrix.nonsing_inv_mul _ hBu, one_mulVec]
  have hBs : (K.submatrix (before i) (before i)).IsSymm := by
    have := hB.isHermitian
    rwa [IsHermitian, conjTranspose_eq_transpose_of_trivial] at this
  refine ⟨fun z => ?_, ?_⟩
  · rw [postMean_eq_weights hBs, hwi]
    show (∑ j : Fin N, L i j * z j : ℝ) = _
    rw [sum_before i _ fun l hl => by rw [h0 i l hl, zero_mul], h1, one_mul, dotProduct, sub_eq_add_neg, ← Finset.sum_neg_distrib]
    congr 1
    exact Finset.sum_congr rfl fun l _ => by ring
  · rw [postVar, hwi, ← hd, hLK, dotProduct, sub_eq_add_neg, ← Finset.sum_neg_distrib]
    congr 1
    refine Finset.sum_congr rfl fun l _ => ?_
    rw [hsym i]
    ring

end

/-- `v` and `S` are the errors and the variances of the errors of predicting the data `y`, with covariance matrix `K`, one after the other in
the order `o`, each from those before it -/
structure Spec.OneStepAhead {N : ℕ} (K : Matrix (Fin N) (Fin N) ℝ) (o : Fin N ≃ Fin N) (y v S : Fin N → ℝ) : Prop where
  error : ∀ i, v i = y (o i) - postMean (Matrix.of fun j l : Fin i => K (o (before i j)) (o (before i l))) (fun j => y (o (before i j)))
    fun j => K (o i) (o (before i j))
  variance : ∀ i, S i = postVar (Matrix.of fun j l : Fin i => K (o (before i j)) (o (before i l))) (K (o i) (o i))
    fun j => K (o i) (o (before i j))

namespace Run
variable {n : Type} [Fintype n] [DecidableEq n] {P1 : Matrix n n ℝ} {T Q : ℕ → Matrix n n ℝ} {Z : ℕ → Option (Matrix n n ℝ)}
    {H : ℕ → Matrix (Fin 1) n ℝ} {R : ℕ → ℝ}

theorem mPred_congr {y y' : ℕ → ℝ} {kf kf' : ℕ → FilterOut n} (r : Run P1 T Q Z H R y kf) (r' : Run P1 T Q Z H R y' kf') {j : ℕ}
    (h : ∀ i < j, Z i = none → y i = y' i) : (kf j).mPred = (kf' j).mPred := by
  induction j with
  | zero => rw [r.zero_m, r'.zero_m]
  | succ j ih =>
    have e := ih fun i hi => h i (by omega)
    rw [r.succ_m, r'.succ_m, r.upd j, r'.upd j, e, (r.cov_indep r' j).1]
    cases hz : Z j with
    | some z => rfl
    | none => rw [h j (by omega) hz]

theorem zero_data {kf : ℕ → FilterOut n} (r : Run P1 T Q Z H R (fun _ => 0) kf) (j : ℕ) : (kf j).mPred = 0 := by
  have := (r.mean_linear r r (a := 0) (b := 0) (fun i => by simp) j).1
  simpa using this

omit [DecidableEq n] in
theorem v_end {y : ℕ → ℝ} {kf : ℕ → FilterOut n} (r : Run P1 T Q Z H R y kf) {j : ℕ} (hz : Z j = none) :
    (kf j).v 0 = y j - (H j *ᵥ (kf j).mPred) 0 := by
  have := r.upd j
  rw [hz] at this
  generalize (kf j).mPred = a at this ⊢
  generalize (kf j).PPred = b at this
  rw [this]
  rfl

/-- what a run returns at its measurements, if it diagonalises the quadratic form of the data -/
theorem oneStep {N : ℕ} {ob : ℕ → ℕ} {kf : (ℕ → ℝ) → ℕ → FilterOut n} (r : ∀ y : ℕ → ℝ, Run P1 T Q Z H R (fun k => y (ob k)) (kf y))
    {e : Fin N → ℕ} (hmono : StrictMono e) {o : Fin N ≃ Fin N} (hz : ∀ i, Z (e i) = none) (hob : ∀ i, ob (e i) = o i)
    (hcover : ∀ i, ∀ k < e i, Z k = none → ∃ j, e j = k) {K : Matrix (Fin N) (Fin N) ℝ} (hK : K.PosDef)
    (hS : ∀ i, ((kf 0) (e i)).S 0 0 ≠ 0)
    (hq : ∀ y : ℕ → ℝ, (fun i : Fin N => y i) ⬝ᵥ K⁻¹ *ᵥ (fun i : Fin N => y i) = ∑ i, ((kf y (e i)).v 0) ^ 2 / ((kf y (e i)).S 0 0)) (y : ℕ → ℝ) :
    OneStepAhead K o (fun i => y i) (fun i => (kf y (e i)).v 0) fun i => (kf y (e i)).S 0 0 := by
  classical
  set ext : (Fin N → ℝ) → ℕ → ℝ := fun z k => if h : k < N then z ⟨k, h⟩ else 0 with hext
  have hexti : ∀ z (i : Fin N), ext z i = z i := fun z i => by simp [hext]
  have hSi : ∀ y i, (kf y (e i)).S 0 0 = (kf 0 (e i)).S 0 0 := fun y i => by rw [((r y).cov_indep (r 0) (e i)).2.2]
  have hv : ∀ y i, (kf y (e i)).v 0 = y (o i) - (H (e i) *ᵥ (kf y (e i)).mPred) 0 := fun y i => by
    rw [(r y).v_end (hz i), hob]
  have hcong : ∀ (y y' : ℕ → ℝ) (i : Fin N), (∀ j, j < i → y (o j) = y' (o j)) → (kf y (e i)).mPred = (kf y' (e i)).mPred := by
    intro y y' i h
    refine (r y).mPred_congr (r y') fun k hk hzk => ?_
    obtain ⟨j, rfl⟩ := hcover i k hk hzk
    show y (ob (e j)) = y' (ob (e j))
    rw [hob]
    exact h j (hmono.lt_iff_lt.1 hk)
  have hzero : ∀ i, (kf 0 (e i)).mPred = 0 := fun i => Run.zero_data (r 0) (e i)
  let V : Fin N → (Fin N → ℝ) →ₗ[ℝ] ℝ := fun i =>
    { toFun := fun z => (kf (ext z) (e i)).v 0
      map_add' := fun z z' => by
        have hl := ((r (ext z)).mean_linear (r (ext z')) (r (ext (z + z'))) (a := 1) (b := 1) (fun k => by
          simp only [hext]; split_ifs <;> simp) (e i)).1
        rw [hv, hv, hv, hl, hexti, hexti, hexti]
        simp only [one_smul, mulVec_add, Pi.add_apply]
        ring
      map_smul' := fun a z => by
        have hl := ((r (ext z)).mean_linear (r (ext z)) (r (ext (a • z))) (a := a) (b := 0) (fun k => by
          simp only [hext]; split_ifs <;> simp) (e i)).1
        rw [hv, hv, hl, hexti, hexti]
        simp only [zero_smul, add_zero, mulVec_smul, Pi.smul_apply, smul_eq_mul, RingHom.id_apply]
        ring }
  let L : Matrix (Fin N) (Fin N) ℝ := Matrix.of fun i j => V i (Pi.single (o j) 1)
  have hVL : ∀ y i, (kf y (e i)).v 0 = (L *ᵥ fun j => y (o j)) i := by
    intro y i
    have e1 : (kf y (e i)).v 0 = V i (fun j : Fin N => y j) := by
      show (kf y (e i)).v 0 = (kf (ext fun j : Fin N => y j) (e i)).v 0
      have e2 : ∀ j : Fin N, ext (fun j : Fin N => y j) (o j) = y (o j) := fun j => hexti (fun j : Fin N => y j) (o j)
      rw [hv, hv, e2, hcong y (ext fun j : Fin N => y j) i fun j _ => (e2 j).symm]
    rw [e1, LinearMap.pi_apply_eq_sum_univ (V i), ← o.sum_comp]
    refine Finset.sum_congr rfl fun j _ => ?_
    show y (o j) • V i _ = V i (Pi.single (o j) 1) * y (o j)
    rw [smul_eq_mul, mul_comm]
    congr 2
    funext l
    rw [Pi.single_apply]
    simp only [eq_comm]
  have hL : ∀ i j, i ≤ j → L i j = if i = j then 1 else 0 := by
    intro i j hij
    show (kf (ext (Pi.single (o j) 1)) (e i)).v 0 = _
    rw [hv, hexti, hcong _ 0 i fun l hl => ?_, hzero, mulVec_zero, Pi.zero_apply, sub_zero, Pi.single_apply]
    · simp only [o.injective.eq_iff]
    · rw [hexti, Pi.single_apply, if_neg fun h => (hl.trans_le hij).ne (o.injective h)]
      rfl
  have hq' : ∀ z, z ⬝ᵥ (K.submatrix o o)⁻¹ *ᵥ z = ∑ i, (L *ᵥ z) i ^ 2 / (kf 0 (e i)).S 0 0 := by
    intro z
    have e1 := hq (ext fun j => z (o.symm j))
    simp only [hVL, hSi, hexti, Equiv.symm_apply_apply] at e1
    rw [← e1, Matrix.inv_submatrix_equiv, Matrix.submatrix_mulVec_equiv, ← comp_equiv_symm_dotProduct]
    rfl
  have main := fun i => one_step_of_triangular (hK.submatrix o.injective) hS (fun i => by rw [hL i i le_rfl, if_pos rfl])
    (fun i j hij => by rw [hL i j hij.le, if_neg hij.ne]) hq' i
  refine ⟨fun i => ?_, fun i => ?_⟩
  · rw [hVL]
    exact (main i).1 _
  · rw [hSi]
    exact (main i).2

end Run

end Verif
