import Verif.Lemmas.IntBlocks
import Verif.Lemmas.Discrete

/-!
# A stationary process together with its integral

`intGM F P first` is the Gauss-Markov process `(x(t), I(t))` with `I(t) = ∫₀ᵗ x_first`. The state of an integrated kernel with
resets is built from it: slot `j` holds `I(t) - I(last reset of j)`.
-/

set_option linter.unusedSectionVars false
set_option linter.unusedSimpArgs false

namespace Verif
open Matrix Spec

variable {n : Type} [Fintype n] [DecidableEq n]

/-- the row selecting `first` -/
def pickRow (first : n) : Matrix Unit n ℝ := Matrix.of fun _ j => if j = first then 1 else 0

theorem pickRow_mul {l : Type} (first : n) (M : Matrix n l ℝ) (u : Unit) (j : l) : (pickRow first * M) u j = M first j := by
  simp [pickRow, Matrix.mul_apply]

theorem mul_pickRow {l : Type} (first : n) (M : Matrix l n ℝ) (i : l) (u : Unit) : (M * (pickRow first)ᵀ) i u = M i first := by
  simp [pickRow, Matrix.mul_apply]

section gm
variable (F P : Matrix n n ℝ) (hP : Pᵀ = P) (first : n)

local notation "Φ" => fun t : ℝ => NormedSpace.exp (t • F)
local notation "Φ1" => PhibarFromVanLoan F
local notation "Φ2" => phibar2 F
local notation "E" => pickRow first

/-- the process with its integral -/
noncomputable def intGM : GM (n ⊕ Unit) where
  A s t := fromBlocks (NormedSpace.exp ((t - s) • F)) 0 (pickRow first * PhibarFromVanLoan F (t - s)) 1
  P t := fromBlocks P (PhibarFromVanLoan F t * P * (pickRow first)ᵀ) (pickRow first * (P * (PhibarFromVanLoan F t)ᵀ))
    (pickRow first * (phibar2 F t * P + P * (phibar2 F t)ᵀ) * (pickRow first)ᵀ)
  A_self t := by rw [sub_self, expm_zero, phibar_zero, Matrix.mul_zero, fromBlocks_one]
  A_comp s t u _ _ := by
    have e : u - s = (t - s) + (u - t) := by ring
    have e' : u - s = (u - t) + (t - s) := by ring
    rw [fromBlocks_multiply, e, phibar_add, ← e, e', expm_add]
    simp only [Matrix.mul_zero, Matrix.zero_mul, Matrix.mul_one, Matrix.one_mul, add_zero, zero_add, Matrix.mul_add, Matrix.mul_assoc]
    rw [add_comm]
  P_symm t := by
    rw [fromBlocks_transpose]
    simp only [transpose_mul, transpose_add, transpose_transpose, hP, Matrix.mul_assoc]
    rw [add_comm (P * (phibar2 F t)ᵀ)]

theorem intGM_A (s t : ℝ) : (intGM F P hP first).A s t =
    fromBlocks (NormedSpace.exp ((t - s) • F)) 0 (pickRow first * PhibarFromVanLoan F (t - s)) 1 := rfl

theorem intGM_P (t : ℝ) : (intGM F P hP first).P t =
    fromBlocks P (PhibarFromVanLoan F t * P * (pickRow first)ᵀ) (pickRow first * (P * (PhibarFromVanLoan F t)ᵀ))
      (pickRow first * (phibar2 F t * P + P * (phibar2 F t)ᵀ) * (pickRow first)ᵀ) := rfl

theorem intGM_Q (s t : ℝ) : (intGM F P hP first).Q s t =
    fromBlocks (P - NormedSpace.exp ((t - s) • F) * P * (NormedSpace.exp ((t - s) • F))ᵀ)
      ((PhibarFromVanLoan F (t - s) * P - NormedSpace.exp ((t - s) • F) * P * (PhibarFromVanLoan F (t - s))ᵀ) * (pickRow first)ᵀ)
      (pickRow first * (PhibarFromVanLoan F (t - s) * P - NormedSpace.exp ((t - s) • F) * P * (PhibarFromVanLoan F (t - s))ᵀ)ᵀ)
      (pickRow first * (phibar2 F (t - s) * P + P * (phibar2 F (t - s))ᵀ -
        PhibarFromVanLoan F (t - s) * P * (PhibarFromVanLoan F (t - s))ᵀ) * (pickRow first)ᵀ) := by
  obtain ⟨d, rfl⟩ : ∃ d, t = s + d := ⟨t - s, by ring⟩
  have e1 : PhibarFromVanLoan F (s + d) = PhibarFromVanLoan F d + NormedSpace.exp (d • F) * PhibarFromVanLoan F s := by
    rw [add_comm, phibar_add, phibar_comm]
  have e2 := phibar2_add F s d
  unfold GM.Q intGM
  simp only [add_sub_cancel_left]
  rw [e1, e2, fromBlocks_transpose, fromBlocks_multiply, fromBlocks_multiply]
  ext (i | i) (j | j)
  · simp [Matrix.sub_apply]
  · simp only [Matrix.sub_apply, fromBlocks_apply₁₂]
    simp only [← Matrix.sub_apply]
    refine congrFun₂ (?_ : (_ : Matrix _ _ ℝ) = _) i j
    simp only [Matrix.add_mul, Matrix.sub_mul, Matrix.mul_add, Matrix.mul_zero, Matrix.zero_mul, transpose_mul, transpose_one, Matrix.mul_one, zero_add,
      add_zero, Matrix.mul_assoc]
    abel
  · simp only [Matrix.sub_apply, fromBlocks_apply₂₁]
    simp only [← Matrix.sub_apply]
    refine congrFun₂ (?_ : (_ : Matrix _ _ ℝ) = _) i j
    simp only [Matrix.add_mul, Matrix.sub_mul, Matrix.mul_add, Matrix.mul_sub, Matrix.mul_zero, Matrix.zero_mul, transpose_mul, transpose_sub, transpose_add, transpose_transpose,
      transpose_one, transpose_zero, Matrix.one_mul, Matrix.mul_one, zero_add, add_zero, Matrix.mul_assoc, hP]
    abel
  · simp only [Matrix.sub_apply, fromBlocks_apply₂₂]
    simp only [← Matrix.sub_apply]
    refine congrFun₂ (?_ : (_ : Matrix _ _ ℝ) = _) i j
    simp only [Matrix.add_mul, Matrix.sub_mul, Matrix.mul_add, Matrix.mul_sub, Matrix.mul_zero, Matrix.zero_mul, transpose_mul, transpose_sub, transpose_add, transpose_transpose,
      transpose_one, transpose_zero, Matrix.one_mul, Matrix.mul_one, zero_add, add_zero, Matrix.mul_assoc]
    abel

/-! ### covariances of the process and its integral -/

/-- covariance function of the latent process for non-negative lags -/
noncomputable def latK (t : ℝ) : ℝ := (NormedSpace.exp (t • F) * P) first first
/-- its first integral -/
noncomputable def latK1 (t : ℝ) : ℝ := (PhibarFromVanLoan F t * P) first first
/-- its second integral -/
noncomputable def latK2 (t : ℝ) : ℝ := (phibar2 F t * P) first first

theorem mul_P_symm (hP : Pᵀ = P) (M : Matrix n n ℝ) (i : n) : (P * Mᵀ) i i = (M * P) i i := by
  rw [← transpose_apply (P * Mᵀ), transpose_mul, transpose_transpose, hP]

theorem intGM_xx {s t : ℝ} (h : s ≤ t) : (intGM F P hP first).C s t (.inl first) (.inl first) = latK F P first (t - s) := by
  rw [GM.C_of_le _ h]
  rw [intGM_A, intGM_P, fromBlocks_transpose, fromBlocks_multiply, fromBlocks_apply₁₁, transpose_zero, Matrix.mul_zero, add_zero]
  exact mul_P_symm P hP _ _

theorem intGM_xI {s t : ℝ} (h : s ≤ t) :
    (intGM F P hP first).C s t (.inl first) (.inr ()) = latK1 F P first s + latK1 F P first (t - s) := by
  rw [GM.C_of_le _ h]
  rw [intGM_A, intGM_P, fromBlocks_transpose, fromBlocks_multiply, fromBlocks_apply₁₂, transpose_one, Matrix.mul_one, Matrix.add_apply, transpose_mul,
    ← Matrix.mul_assoc, mul_pickRow, mul_pickRow, mul_P_symm P hP]
  unfold latK1
  ring

theorem intGM_xI' {s t : ℝ} (h : t ≤ s) :
    (intGM F P hP first).C s t (.inl first) (.inr ()) = latK1 F P first s - latK1 F P first (s - t) := by
  rw [GM.C_of_ge _ h]
  rw [intGM_A, intGM_P, fromBlocks_multiply, fromBlocks_apply₁₂, Matrix.zero_mul, add_zero, ← Matrix.mul_assoc, mul_pickRow, ← Matrix.mul_assoc,
    ← phibar_comm]
  have e : PhibarFromVanLoan F s = PhibarFromVanLoan F (s - t) + PhibarFromVanLoan F t * NormedSpace.exp ((s - t) • F) := by
    rw [← phibar_add]; congr 1; ring
  unfold latK1
  rw [e, Matrix.add_mul, Matrix.add_apply]
  ring

theorem intGM_II {s t : ℝ} (h : s ≤ t) :
    (intGM F P hP first).C s t (.inr ()) (.inr ()) = latK2 F P first s + latK2 F P first t - latK2 F P first (t - s) := by
  rw [GM.C_of_le _ h]
  rw [intGM_A, intGM_P, fromBlocks_transpose, fromBlocks_multiply, fromBlocks_apply₂₂, transpose_one, Matrix.mul_one, Matrix.add_apply, transpose_mul,
    ← Matrix.mul_assoc, mul_pickRow, mul_pickRow, Matrix.mul_assoc, pickRow_mul, pickRow_mul, Matrix.add_apply, mul_P_symm P hP,
    Matrix.mul_assoc, ← transpose_mul, mul_P_symm P hP]
  have e : phibar2 F t = phibar2 F s + phibar2 F (t - s) + PhibarFromVanLoan F (t - s) * PhibarFromVanLoan F s := by
    rw [← phibar2_add]; congr 1; ring
  unfold latK2
  rw [e, Matrix.add_mul, Matrix.add_mul, Matrix.add_apply, Matrix.add_apply]
  ring

end gm

/-! ### the chain of an integrated kernel -/

section chain
variable (F P : Matrix n n ℝ) (hP : Pᵀ = P) (first : n) (m : ℕ)

/-- augmented transition matrix -/
noncomputable def augA (dt : ℝ) : Matrix (n ⊕ Fin (m + 1)) (n ⊕ Fin (m + 1)) ℝ :=
  fromBlocks (NormedSpace.exp (dt • F)) 0 (Matrix.of fun _ j => PhibarFromVanLoan F dt first j) 1

/-- augmented process noise -/
noncomputable def augQ (dt : ℝ) : Matrix (n ⊕ Fin (m + 1)) (n ⊕ Fin (m + 1)) ℝ :=
  fromBlocks (P - NormedSpace.exp (dt • F) * P * (NormedSpace.exp (dt • F))ᵀ)
    (Matrix.of fun a _ => (PhibarFromVanLoan F dt * P - NormedSpace.exp (dt • F) * P * (PhibarFromVanLoan F dt)ᵀ) a first)
    (Matrix.of fun _ a => (PhibarFromVanLoan F dt * P - NormedSpace.exp (dt • F) * P * (PhibarFromVanLoan F dt)ᵀ) a first)
    (Matrix.of fun _ _ => (phibar2 F dt * P + P * (phibar2 F dt)ᵀ - PhibarFromVanLoan F dt * P * (PhibarFromVanLoan F dt)ᵀ) first first)

/-- reset of one slot -/
def resetMat (j : Fin (m + 1)) : Matrix (n ⊕ Fin (m + 1)) (n ⊕ Fin (m + 1)) ℝ :=
  Matrix.diagonal (Sum.elim (fun _ => 1) fun i => if i = j then 0 else 1)

/-- the effect of an event: `some j` resets slot `j` -/
def jumpMat : Option (Fin (m + 1)) → Matrix (n ⊕ Fin (m + 1)) (n ⊕ Fin (m + 1)) ℝ
  | none => 1
  | some j => resetMat m j

/-- forget the slot -/
def unslot : n ⊕ Fin (m + 1) → n ⊕ Unit := Sum.map id fun _ => ()

variable (τ : ℕ → ℝ) (rs : ℕ → Option (Fin (m + 1)))

/-- the content of slot `j` just before event `k` -/
noncomputable def zvar (j : Fin (m + 1)) : ℕ → GM.Space (n ⊕ Unit)
  | 0 => GM.r j
  | k + 1 => (if rs k = some j then 0 else zvar j k) + (GM.x (τ (k + 1)) (.inr ()) - GM.x (τ k) (.inr ()))

/-- the augmented state just before event `k` -/
noncomputable def augVar (k : ℕ) : n ⊕ Fin (m + 1) → GM.Space (n ⊕ Unit) :=
  Sum.elim (fun a => GM.x (τ k) (.inl a)) fun j => zvar m τ rs j k

theorem augQ_eq (s t : ℝ) (a b : n ⊕ Fin (m + 1)) :
    augQ F P first m (t - s) a b = (intGM F P hP first).Q s t (unslot m a) (unslot m b) := by
  rw [intGM_Q]
  rcases a with a | a <;> rcases b with b | b
  · rfl
  · simp only [augQ, unslot, Sum.map_inl, Sum.map_inr, fromBlocks_apply₁₂, of_apply, mul_pickRow]; rfl
  · simp only [augQ, unslot, Sum.map_inl, Sum.map_inr, fromBlocks_apply₂₁, of_apply, pickRow_mul]; rfl
  · simp only [augQ, unslot, Sum.map_inr, fromBlocks_apply₂₂, of_apply, mul_pickRow, pickRow_mul]

theorem jump_augVar (k : ℕ) : lin (jumpMat m (rs k)) (augVar m τ rs k) =
    Sum.elim (fun a : n => GM.x (τ k) (.inl a)) fun j => if rs k = some j then 0 else zvar m τ rs j k := by
  funext a
  cases hr : rs k with
  | none =>
    rw [jumpMat, lin_one]
    rcases a with a | a <;> simp [augVar]
  | some j =>
    have : ∀ a, lin (resetMat m j) (augVar m τ rs k) a = (Sum.elim (fun _ : n => (1 : ℝ)) (fun i => if i = j then 0 else 1) a) • augVar m τ rs k a := by
      intro a
      simp only [lin, resetMat, diagonal_apply, ite_smul, zero_smul]
      rw [Finset.sum_ite_eq]
      simp
    rw [jumpMat, this]
    rcases a with a | a
    · simp [augVar]
    · simp only [augVar, Sum.elim_inr, Option.some.injEq]
      by_cases h : a = j
      · rw [if_pos h, if_pos h.symm, zero_smul]
      · rw [if_neg h, if_neg fun h' => h h'.symm, one_smul]

theorem augVar_step (k : ℕ) (a : n ⊕ Fin (m + 1)) : augVar m τ rs (k + 1) a =
    lin (augA F first m (τ (k + 1) - τ k) * jumpMat m (rs k)) (augVar m τ rs k) a +
      (intGM F P hP first).q (τ k) (τ (k + 1)) (unslot m a) := by
  have hq : ∀ b, (intGM F P hP first).q (τ k) (τ (k + 1)) b =
      GM.x (τ (k + 1)) b - lin ((intGM F P hP first).A (τ k) (τ (k + 1))) (GM.x (τ k)) b := fun b => rfl
  rw [← lin_lin, jump_augVar, hq]
  rcases a with a | a
  · simp only [unslot, Sum.map_inl, id]
    have : lin (augA F first m (τ (k + 1) - τ k)) (Sum.elim (fun a : n => GM.x (τ k) (.inl a)) fun j => if rs k = some j then 0 else zvar m τ rs j k)
        (Sum.inl a) = lin ((intGM F P hP first).A (τ k) (τ (k + 1))) (GM.x (τ k)) (Sum.inl a) := by
      simp [lin, augA, intGM]
    rw [this]
    show GM.x (τ (k + 1)) (Sum.inl a) = _
    abel
  · simp only [unslot, Sum.map_inr]
    have h1 : lin (augA F first m (τ (k + 1) - τ k)) (Sum.elim (fun a : n => GM.x (τ k) (.inl a)) fun j => if rs k = some j then 0 else zvar m τ rs j k)
        (Sum.inr a) = ∑ b, PhibarFromVanLoan F (τ (k + 1) - τ k) first b • GM.x (τ k) (.inl b) + if rs k = some a then 0 else zvar m τ rs a k := by
      simp only [lin, augA, Fintype.sum_sum_type, fromBlocks_apply₂₁, fromBlocks_apply₂₂, of_apply, Sum.elim_inl, Sum.elim_inr, Matrix.one_apply]
      rw [Finset.sum_eq_single a (fun b _ hb => by rw [if_neg (Ne.symm hb), zero_smul]) (fun h => absurd (Finset.mem_univ _) h),
        if_pos rfl, one_smul]
    have h2 : lin ((intGM F P hP first).A (τ k) (τ (k + 1))) (GM.x (τ k)) (Sum.inr ()) =
        ∑ b, PhibarFromVanLoan F (τ (k + 1) - τ k) first b • GM.x (τ k) (.inl b) + GM.x (τ k) (.inr ()) := by
      simp [lin, intGM, pickRow_mul]
    rw [h1, h2]
    show (if rs k = some a then 0 else zvar m τ rs a k) + (GM.x (τ (k + 1)) (.inr ()) - GM.x (τ k) (.inr ())) = _
    abel

variable (hτ : Monotone τ)
include hτ

theorem q_zvar {k j : ℕ} (h : j ≤ k) (a : n ⊕ Unit) (i : Fin (m + 1)) (R : ℕ → ℝ) :
    (intGM F P hP first).B R ((intGM F P hP first).q (τ k) (τ (k + 1)) a) (zvar m τ rs i j) = 0 := by
  induction j with
  | zero => exact GM.B_qr _ R _ _ a _
  | succ j ih =>
    have hk := hτ (Nat.le_succ k)
    have e1 := GM.B_qx (intGM F P hP first) R (hτ h) hk a (.inr ())
    have e2 := GM.B_qx (intGM F P hP first) R (hτ (show j ≤ k by omega)) hk a (.inr ())
    show (intGM F P hP first).B R _ ((if rs j = some i then 0 else zvar m τ rs i j) + _) = 0
    rw [map_add, map_sub, e1, e2, sub_zero, add_zero]
    split_ifs
    · exact map_zero _
    · exact ih (by omega)

/-- the augmented states form a chain -/
noncomputable def intChain : Chain ((intGM F P hP first).B fun _ => 1) (0 : GM.Space (n ⊕ Unit) →ₗ[ℝ] ℝ) (n ⊕ Fin (m + 1)) where
  x := augVar m τ rs
  r _ := 0
  q k a := (intGM F P hP first).q (τ k) (τ (k + 1)) (unslot m a)
  T k := augA F first m (τ (k + 1) - τ k) * jumpMat m (rs k)
  Q k := augQ F P first m (τ (k + 1) - τ k)
  isObs _ := false
  H _ := 0
  R _ := 0
  y _ := 0
  symm := GM.B_symm _ _
  step k a := augVar_step F P hP first m τ rs k a
  hq k j a b h := by
    rcases b with b | b
    · exact GM.B_qx _ _ (hτ h) (hτ (Nat.le_succ k)) _ _
    · exact q_zvar F P hP first m τ rs hτ h _ b _
  hqr k j a := map_zero _
  hr k j b := by simp
  hrr i j _ := by simp
  hQ k a b := by rw [augQ_eq F P hP first m]; exact (GM.B_qq _ _ (hτ (Nat.le_succ k)) _ _).symm
  hR k := by simp
  hy k := rfl

/-- second moments of the augmented model are covariances of the process and its integral -/
theorem stateCov_aug (i j : ℕ) (a b : n ⊕ Fin (m + 1)) :
    stateCov (fun k => augA F first m (τ (k + 1) - τ k) * jumpMat m (rs k)) (fun k => augQ F P first m (τ (k + 1) - τ k))
      (fromBlocks P 0 0 1) i j a b = (intGM F P hP first).B (fun _ => 1) (augVar m τ rs i a) (augVar m τ rs j b) := by
  refine ((intChain F P hP first m τ rs hτ).xx (P0 := fromBlocks P 0 0 1) (fun a b => ?_) i j a b).symm
  show fromBlocks P 0 0 1 a b = (intGM F P hP first).B (fun _ => 1) (augVar m τ rs 0 a) (augVar m τ rs 0 b)
  rcases a with a | a <;> rcases b with b | b
  · exact ((GM.B_xx _ _ _ _ _ _).trans (by rw [GM.C_self]; rfl)).symm
  · exact (GM.B_xr _ _ _ _ _).symm
  · exact (GM.B_rx _ _ _ _ _).symm
  · refine Eq.trans ?_ (GM.B_rr _ _ _ _).symm
    rw [fromBlocks_apply₂₂, Matrix.one_apply]
    simp [Fin.ext_iff]

end chain

/-- what a slot holds at the end of an exposure -/
theorem zvar_eq (m : ℕ) (τ : ℕ → ℝ) (rs : ℕ → Option (Fin (m + 1))) (j : Fin (m + 1)) {a e : ℕ} (hae : a < e) (ha : rs a = some j)
    (h : ∀ l, a < l → l < e → rs l = some j → τ l = τ a) :
    zvar (n := n) m τ rs j e = GM.x (τ e) (.inr ()) - GM.x (τ a) (.inr ()) := by
  have key : ∀ l, a < l → l ≤ e → zvar (n := n) m τ rs j l = GM.x (τ l) (.inr ()) - GM.x (τ a) (.inr ()) := by
    intro l hal
    induction l, hal using Nat.le_induction with
    | base => intro _; rw [zvar, if_pos ha, zero_add]
    | succ l hl ih =>
      intro hle
      rw [zvar]
      split_ifs with hr
      · rw [zero_add, h l hl (by omega) hr]
      · rw [ih (by omega)]; abel
  exact key e hae le_rfl

end Verif
