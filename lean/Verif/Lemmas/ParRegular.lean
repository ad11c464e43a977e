import Verif.Lemmas.ParStep

/-!
# Scans in which no system is singular

Without positive semidefinite elements the combination need not be associative, but a scan in which every combined pair has a regular
system still returns the filter run: an element of a block holds for every trajectory through the block, and the filter provides enough
trajectories to determine the elements of prefixes.
-/

set_option linter.unusedSectionVars false

namespace Verif
open Matrix

section scan
variable {α : Type*}

/-- the pairs combined by `assocScanGet f n e` -/
def scanCombines (f : α → α → α) : (n : ℕ) → (ℕ → α) → α → α → Prop
  | n, e =>
    if h : n < 2 then fun _ _ => False
    else fun a b =>
      (∃ i < n / 2, a = e (2 * i) ∧ b = e (2 * i + 1)) ∨
      scanCombines f (n / 2) (fun i => f (e (2 * i)) (e (2 * i + 1))) a b ∨
      ∃ i, 0 < i ∧ 2 * i < n ∧ a = assocScanGet f (n / 2) (fun i => f (e (2 * i)) (e (2 * i + 1))) (i - 1) ∧ b = e (2 * i)
  termination_by n => n
  decreasing_by omega

/-- what holds for the blocks of the elements holds for the prefixes, if the combinations which are performed keep it -/
theorem scan_blocks (f : α → α → α) (W : ℕ → ℕ → α → Prop) (n : ℕ) : ∀ (e : ℕ → α) (s : ℕ → ℕ),
    (∀ i k j a b, W i k a → W k j b → scanCombines f n e a b → W i j (f a b)) → (∀ i < n, W (s i) (s (i + 1)) (e i)) →
    ∀ j < n, W (s 0) (s (j + 1)) (assocScanGet f n e j) := by
  induction n using Nat.strong_induction_on with
  | _ n ih =>
    intro e s hW he j hj
    by_cases h2 : n < 2
    · have hj0 : j = 0 := by omega
      subst hj0
      rw [assocScanGet]
      simp only [h2, dif_pos]
      exact he 0 hj
    · have hodd := ih (n / 2) (by omega) (fun i => f (e (2 * i)) (e (2 * i + 1))) (fun i => s (2 * i))
        (fun i k j a b ha hb hc => hW i k j a b ha hb (by
          rw [scanCombines]; simp only [h2, dif_neg, not_false_eq_true]; exact .inr (.inl hc)))
        (fun i hi => hW _ _ _ _ _ (he (2 * i) (by omega)) (he (2 * i + 1) (by omega)) (by
          rw [scanCombines]; simp only [h2, dif_neg, not_false_eq_true]; exact .inl ⟨i, hi, rfl, rfl⟩))
      rw [assocScanGet]
      simp only [h2, dif_neg, not_false_eq_true]
      by_cases hp : j % 2 = 0
      · simp only [hp, if_true]
        by_cases h0 : j / 2 = 0
        · simp only [h0, if_true]
          have : j = 0 := by omega
          subst this
          exact he 0 hj
        · simp only [h0, if_false]
          have h := hodd (j / 2 - 1) (by omega)
          have e1 : 2 * (j / 2 - 1 + 1) = j := by omega
          have e2 : 2 * (j / 2) = j := by omega
          simp only [Nat.mul_zero, e1] at h
          rw [e2]
          refine hW _ _ _ _ _ h (he j hj) ?_
          rw [scanCombines]
          simp only [h2, dif_neg, not_false_eq_true]
          exact .inr (.inr ⟨j / 2, by omega, by omega, rfl, by rw [e2]⟩)
      · simp only [hp, if_false]
        have h := hodd (j / 2) (by omega)
        have e1 : 2 * (j / 2 + 1) = j + 1 := by omega
        simp only [Nat.mul_zero, e1] at h
        exact h

end scan

variable {n : Type} [Fintype n] [DecidableEq n]

namespace KElem

/-- `C` and `J` are symmetric -/
def Sym (e : KElem n) : Prop := e.Cᵀ = e.C ∧ e.Jᵀ = e.J

theorem combine_sym (e f : KElem n) : (e.combine f).Sym := by
  constructor
  · simp only [combine, transpose_smul, transpose_add, transpose_transpose, add_comm]
  · simp only [combine, transpose_smul, transpose_add, transpose_transpose, add_comm]

variable {e f : KElem n}

theorem solve_sym {C J : Matrix n n ℝ} (hC : Cᵀ = C) (hJ : Jᵀ = J) (hD : IsUnit (1 + C * J).det) : (solve (1 + C * J) C)ᵀ = solve (1 + C * J) C := by
  have hDt : (1 + C * J)ᵀ = 1 + J * C := by rw [transpose_add, transpose_one, transpose_mul, hC, hJ]
  have hE : IsUnit (1 + J * C).det := by rw [← hDt, det_transpose]; exact hD
  unfold solve
  rw [transpose_mul, hC, transpose_nonsing_inv, hDt]
  have h : (1 + C * J) * C = C * (1 + J * C) := by rw [Matrix.add_mul, Matrix.mul_add, Matrix.one_mul, Matrix.mul_one, Matrix.mul_assoc]
  calc C * (1 + J * C)⁻¹ = (1 + C * J)⁻¹ * ((1 + C * J) * C) * (1 + J * C)⁻¹ := by
        rw [← Matrix.mul_assoc, Matrix.nonsing_inv_mul _ hD, Matrix.one_mul]
    _ = (1 + C * J)⁻¹ * C := by rw [h, Matrix.mul_assoc, Matrix.mul_assoc, Matrix.mul_nonsing_inv _ hE, Matrix.mul_one]

theorem regular_swap (he : e.Sym) (hf : f.Sym) (hD : IsUnit (1 + e.C * f.J).det) : IsUnit (1 + f.J * e.C).det := by
  have : (1 + e.C * f.J)ᵀ = 1 + f.J * e.C := by rw [transpose_add, transpose_one, transpose_mul, he.1, hf.2]
  rw [← this, det_transpose]
  exact hD

theorem combine_C' (he : e.Sym) (hf : f.Sym) (hD : IsUnit (1 + e.C * f.J).det) :
    (e.combine f).C = f.A * solve (1 + e.C * f.J) e.C * f.Aᵀ + f.C := by
  refine half_add _ ?_
  rw [transpose_add, transpose_mul, transpose_mul, transpose_transpose, solve_sym he.1 hf.2 hD, hf.1, Matrix.mul_assoc]

theorem combine_J' (he : e.Sym) (hf : f.Sym) (hD : IsUnit (1 + e.C * f.J).det) :
    (e.combine f).J = e.Aᵀ * solve (1 + f.J * e.C) f.J * e.A + e.J := by
  refine half_add _ ?_
  rw [transpose_add, transpose_mul, transpose_mul, transpose_transpose, solve_sym hf.2 he.1 (regular_swap he hf hD), he.2, Matrix.mul_assoc]

/-- combining elements with a regular system composes their relations -/
theorem combine_rel' (he : e.Sym) (hf : f.Sym) (hD : IsUnit (1 + e.C * f.J).det) {x l x' l' x'' l'' : n → ℝ} (h1 : e.Rel x l x' l')
    (h2 : f.Rel x' l' x'' l'') : (e.combine f).Rel x l x'' l'' := by
  obtain ⟨a1, a2⟩ := h1
  obtain ⟨b1, b2⟩ := h2
  have hE := regular_swap he hf hD
  have hDt : (1 + e.C * f.J)ᵀ = 1 + f.J * e.C := by rw [transpose_add, transpose_one, transpose_mul, he.1, hf.2]
  have ex : x' = (1 + e.C * f.J)⁻¹ *ᵥ (e.A *ᵥ x + (e.b + e.C *ᵥ f.eta) + e.C *ᵥ (f.Aᵀ *ᵥ l'')) := by
    have : (1 + e.C * f.J) *ᵥ x' = e.A *ᵥ x + (e.b + e.C *ᵥ f.eta) + e.C *ᵥ (f.Aᵀ *ᵥ l'') := by
      rw [add_mulVec, one_mulVec, ← mulVec_mulVec]
      have e1 : e.C *ᵥ l' = e.C *ᵥ (f.Aᵀ *ᵥ l'') + e.C *ᵥ f.eta - e.C *ᵥ (f.J *ᵥ x') := by
        conv_lhs => rw [b2]
        rw [mulVec_sub, mulVec_add]
      have e2 : x' + e.C *ᵥ (f.J *ᵥ x') = (e.A *ᵥ x + e.b + e.C *ᵥ l') + e.C *ᵥ (f.J *ᵥ x') := by rw [← a1]
      rw [e2, e1]
      abel
    rw [← this, mulVec_mulVec, Matrix.nonsing_inv_mul _ hD, one_mulVec]
  have el : l' = (1 + f.J * e.C)⁻¹ *ᵥ (f.Aᵀ *ᵥ l'' + (f.eta - f.J *ᵥ e.b) - f.J *ᵥ (e.A *ᵥ x)) := by
    have : (1 + f.J * e.C) *ᵥ l' = f.Aᵀ *ᵥ l'' + (f.eta - f.J *ᵥ e.b) - f.J *ᵥ (e.A *ᵥ x) := by
      rw [add_mulVec, one_mulVec, ← mulVec_mulVec]
      have e1 : f.J *ᵥ x' = f.J *ᵥ (e.A *ᵥ x) + f.J *ᵥ e.b + f.J *ᵥ (e.C *ᵥ l') := by rw [a1, mulVec_add, mulVec_add]
      have e2 : l' + f.J *ᵥ (e.C *ᵥ l') = (f.Aᵀ *ᵥ l'' + f.eta - f.J *ᵥ x') + f.J *ᵥ (e.C *ᵥ l') := by rw [← b2]
      rw [e2, e1]
      abel
    rw [← this, mulVec_mulVec, Matrix.nonsing_inv_mul _ hE, one_mulVec]
  constructor
  · rw [combine_C' he hf hD, b1, ex]
    show _ = (f.A * solve _ e.A) *ᵥ x + (f.A *ᵥ solveVec _ _ + f.b) + _
    unfold solve solveVec
    simp only [mulVec_add, add_mulVec, mulVec_mulVec, Matrix.mul_assoc]
    abel
  · rw [combine_J' he hf hD, a2, el]
    show _ = (f.A * solve _ e.A)ᵀ *ᵥ l'' + (e.Aᵀ *ᵥ solveVec _ _ + e.eta) - _
    unfold solve solveVec
    simp only [transpose_mul, transpose_nonsing_inv, hDt, mulVec_add, mulVec_sub, add_mulVec, mulVec_mulVec, Matrix.mul_assoc]
    abel

end KElem

section measure
variable {Phi Q : Matrix n n ℝ} {H : Matrix (Fin 1) n ℝ} {y r : ℝ}

theorem measure_sym (hQ : Qᵀ = Q) : (KElem.measure Phi Q H y r).Sym := by
  constructor
  · simp only [KElem.measure, solve_fin_one, transpose_smul, transpose_transpose]
    rw [Matrix.sub_mul, Matrix.one_mul, transpose_sub, hQ, Matrix.smul_mul, Matrix.smul_mul, transpose_smul, transpose_mul, transpose_mul,
      transpose_mul, transpose_transpose, hQ]
    simp only [Matrix.mul_assoc]
  · simp only [KElem.measure, solve_fin_one]
    rw [Matrix.mul_smul, transpose_smul, transpose_mul, transpose_transpose]

/-- every final costate is reached through a step from the filtered states -/
theorem measure_step (hQ : Qᵀ = Q) {m : n → ℝ} {P : Matrix n n ℝ} (hP : Pᵀ = P) (hs : freshS Q H r ≠ 0)
    (hS : (H * (Phi * P * Phiᵀ + Q) * Hᵀ) 0 0 + r ≠ 0) (l' : n → ℝ) :
    ∃ l, (KElem.measure Phi Q H y r).Rel (m + P *ᵥ l) l
      ((kalmanUpdate H r y (Phi *ᵥ m) (Phi * P * Phiᵀ + Q)).m + (kalmanUpdate H r y (Phi *ᵥ m) (Phi * P * Phiᵀ + Q)).P *ᵥ l') l' := by
  set m1 := Phi *ᵥ m with hm1
  set P1 := Phi * P * Phiᵀ + Q with hP1
  have hP1t : P1ᵀ = P1 := by
    rw [hP1, transpose_add, transpose_mul, transpose_mul, transpose_transpose, hP, hQ, Matrix.mul_assoc]
  set S := (H * P1 * Hᵀ) 0 0 + r with hSd
  set s := freshS Q H r with hsd
  have hS' : S = H 0 ⬝ᵥ P1 *ᵥ H 0 + r := by rw [hSd, mul_row_apply]
  have hs' : s = H 0 ⬝ᵥ Q *ᵥ H 0 + r := by rw [hsd, freshS, mul_row_apply]
  set u := S⁻¹ * (y - H 0 ⬝ᵥ m1 - H 0 ⬝ᵥ P1 *ᵥ l') with hu
  set w := l' + u • H 0 with hw
  set l := Phiᵀ *ᵥ w with hl
  have hup : (kalmanUpdate H r y m1 P1).m + (kalmanUpdate H r y m1 P1).P *ᵥ l' = m1 + P1 *ᵥ w := by
    rw [hw, mulVec_add, mulVec_smul, hu]
    have hK : (solve ((Matrix.of fun i j => (H * P1 * Hᵀ) i j + r : Matrix (Fin 1) (Fin 1) ℝ))ᵀ (P1 * Hᵀ)ᵀ)ᵀ = S⁻¹ • (P1 * Hᵀ) := by
      rw [solve_fin_one, transpose_smul, transpose_transpose]; rfl
    simp only [kalmanUpdate, hK]
    have e1 : (P1 * Hᵀ)ᵀ = H * P1 := by rw [transpose_mul, transpose_transpose, hP1t]
    have e2 : ∀ (M : Matrix (Fin 1) (Fin 1) ℝ) (z : Fin 1 → ℝ), (M *ᵥ z) 0 = M 0 0 * z 0 := by
      intro M z; simp [mulVec, dotProduct]
    rw [sub_mulVec, transpose_smul, e1, Matrix.smul_mul, Matrix.smul_mul, smul_mulVec, smul_mulVec, Matrix.mul_smul, smul_mulVec,
      ← mulVec_mulVec, ← mulVec_mulVec, ← mulVec_mulVec, ← mulVec_mulVec, ← mulVec_mulVec, col_mulVec, col_mulVec, mulVec_smul,
      mulVec_smul, smul_smul, smul_smul, smul_smul, e2]
    have e3 : S⁻¹ * S⁻¹ * ((Matrix.of fun i j => (H * P1 * Hᵀ) i j + r : Matrix (Fin 1) (Fin 1) ℝ) 0 0 * (H *ᵥ P1 *ᵥ l') 0) =
        S⁻¹ * (H 0 ⬝ᵥ P1 *ᵥ l') := by
      change S⁻¹ * S⁻¹ * (S * (H 0 ⬝ᵥ P1 *ᵥ l')) = _
      field_simp
    rw [e3, row_mulVec]
    have e4 : S⁻¹ * (y - H 0 ⬝ᵥ m1 - H 0 ⬝ᵥ P1 *ᵥ l') = S⁻¹ * (y - H 0 ⬝ᵥ m1) - S⁻¹ * (H 0 ⬝ᵥ P1 *ᵥ l') := by ring
    rw [e4, sub_smul]
    abel
  have hSu : S * u = y - H 0 ⬝ᵥ m1 - H 0 ⬝ᵥ P1 *ᵥ l' := by rw [hu]; field_simp
  -- the state before the step
  set x := m + P *ᵥ l with hx
  have hmid : m1 + P1 *ᵥ w = Phi *ᵥ x + Q *ᵥ w := by
    clear_value w
    rw [hx, hl, hm1, hP1, add_mulVec, mulVec_add, ← mulVec_mulVec, ← mulVec_mulVec]
    abel
  have hsu : s⁻¹ * (y - H 0 ⬝ᵥ Phi *ᵥ x - H 0 ⬝ᵥ Q *ᵥ l') = u := by
    have h1 : H 0 ⬝ᵥ Phi *ᵥ x = H 0 ⬝ᵥ m1 + H 0 ⬝ᵥ P1 *ᵥ w - H 0 ⬝ᵥ Q *ᵥ w := by
      have := congrArg (H 0 ⬝ᵥ ·) hmid
      simp only [dotProduct_add] at this
      linarith
    have h2 : H 0 ⬝ᵥ P1 *ᵥ w = H 0 ⬝ᵥ P1 *ᵥ l' + u * (H 0 ⬝ᵥ P1 *ᵥ H 0) := by
      rw [hw, mulVec_add, mulVec_smul, dotProduct_add, dotProduct_smul, smul_eq_mul]
    have h3 : H 0 ⬝ᵥ Q *ᵥ w = H 0 ⬝ᵥ Q *ᵥ l' + u * (H 0 ⬝ᵥ Q *ᵥ H 0) := by
      rw [hw, mulVec_add, mulVec_smul, dotProduct_add, dotProduct_smul, smul_eq_mul]
    have h4 : y - H 0 ⬝ᵥ Phi *ᵥ x - H 0 ⬝ᵥ Q *ᵥ l' = s * u := by
      rw [hS'] at hSu
      rw [h1, h2, h3, hs']
      linarith
    rw [h4]
    field_simp
  have hsplit : s⁻¹ * (y - H 0 ⬝ᵥ Phi *ᵥ x - H 0 ⬝ᵥ Q *ᵥ l') = s⁻¹ * y - s⁻¹ * (H 0 ⬝ᵥ Phi *ᵥ x) - s⁻¹ * (H 0 ⬝ᵥ Q *ᵥ l') := by ring
  clear_value x l w u
  refine ⟨l, ?_, ?_⟩
  · rw [← hx, hup, hmid, measure_A, measure_b, measure_C, ← hsd, hw, mulVec_add, mulVec_smul]
    rw [← hsu, hsplit, sub_smul, sub_smul]
    abel
  · rw [measure_At _ _ _ _ _ hQ, measure_eta, measure_J, ← hsd, ← hx, hl, hw, mulVec_add, mulVec_smul]
    rw [← hsu, hsplit, sub_smul, sub_smul]
    abel

end measure

theorem resetElem_sym {Z Phi Q : Matrix n n ℝ} (hQ : Qᵀ = Q) : (resetElem Z Phi Q).Sym := by
  refine ⟨?_, transpose_zero⟩
  show (Z * Q * Zᵀ)ᵀ = Z * Q * Zᵀ
  rw [transpose_mul, transpose_mul, transpose_transpose, hQ, Matrix.mul_assoc]

theorem reset_step (Z Phi Q : Matrix n n ℝ) (m : n → ℝ) (P : Matrix n n ℝ) (l' : n → ℝ) :
    ∃ l, (resetElem Z Phi Q).Rel (m + P *ᵥ l) l (Z *ᵥ (Phi *ᵥ m) + (Z * (Phi * P * Phiᵀ + Q) * Zᵀ) *ᵥ l') l' := by
  refine ⟨(Z * Phi)ᵀ *ᵥ l', ?_, ?_⟩
  · show _ = (Z * Phi) *ᵥ (m + P *ᵥ (Z * Phi)ᵀ *ᵥ l') + 0 + (Z * Q * Zᵀ) *ᵥ l'
    simp only [Matrix.mul_add, Matrix.add_mul, add_mulVec, mulVec_add, transpose_mul, mulVec_mulVec, Matrix.mul_assoc]
    abel
  · show _ = (Z * Phi)ᵀ *ᵥ l' + 0 - 0 *ᵥ _
    rw [zero_mulVec, add_zero, sub_zero]

/-- the systems of a step are regular: the one of its scan element and the one of the filter -/
def StepOk (Q : Matrix n n ℝ) (Z : Option (Matrix n n ℝ)) (H : Matrix (Fin 1) n ℝ) (R : ℝ) (f : FilterOut n) : Prop :=
  Z = none → freshS Q H R ≠ 0 ∧ (H * f.PPred * Hᵀ) 0 0 + R ≠ 0

/-- the scanned elements hold the filtered means and covariances, if no system is singular -/
theorem prefix_regular {P1 : Matrix n n ℝ} {T Q : ℕ → Matrix n n ℝ} {Z : ℕ → Option (Matrix n n ℝ)} {H : ℕ → Matrix (Fin 1) n ℝ}
    {R y : ℕ → ℝ} {kf : ℕ → FilterOut n} (r : Run P1 T Q Z H R y kf) {e : ℕ → KElem n} {N : ℕ} (h0 : (e 0).Sym)
    (hb : (e 0).b = (kf 0).m) (hC : (e 0).C = (kf 0).P) (hQ : ∀ k, k + 1 < N → (Q k)ᵀ = Q k) (hP : ∀ k, k + 1 < N → ((kf k).P)ᵀ = (kf k).P)
    (hok : ∀ k, k + 1 < N → StepOk (Q k) (Z (k + 1)) (H (k + 1)) (R (k + 1)) (kf (k + 1)))
    (he : ∀ k, k + 1 < N → e (k + 1) = runElem (T k) (Q k) (Z (k + 1)) (H (k + 1)) (R (k + 1)) (y (k + 1)))
    (hreg : ∀ a b, scanCombines KElem.combine N e a b → IsUnit (1 + a.C * b.J).det) (k : ℕ) (hk : k < N) :
    (assocScanGet KElem.combine N e k).b = (kf k).m ∧ (assocScanGet KElem.combine N e k).C = (kf k).P := by
  have hsym : ∀ j < N, (e j).Sym := by
    intro j hj
    cases j with
    | zero => exact h0
    | succ j =>
      rw [he j hj]
      unfold runElem
      cases Z (j + 1) with
      | some z => exact resetElem_sym (hQ j hj)
      | none => exact measure_sym (hQ j hj)
  -- an element of a block holds for every trajectory
  have hW : (assocScanGet KElem.combine N e k).Sym ∧ ∀ x l : ℕ → n → ℝ, (∀ i, 0 ≤ i → i < k + 1 → (e i).Rel (x i) (l i) (x (i + 1)) (l (i + 1))) →
      (assocScanGet KElem.combine N e k).Rel (x 0) (l 0) (x (k + 1)) (l (k + 1)) :=
    scan_blocks KElem.combine (fun i j a => i ≤ j ∧ a.Sym ∧ ∀ x l : ℕ → n → ℝ,
        (∀ m, i ≤ m → m < j → (e m).Rel (x m) (l m) (x (m + 1)) (l (m + 1))) → a.Rel (x i) (l i) (x j) (l j)) N e id
      (fun i m j a b ha hb hc => ⟨ha.1.trans hb.1, KElem.combine_sym a b, fun x l h => KElem.combine_rel' ha.2.1 hb.2.1 (hreg a b hc)
        (ha.2.2 x l fun q h1 h2 => h q h1 (h2.trans_le hb.1)) (hb.2.2 x l fun q h1 h2 => h q (ha.1.trans h1) h2)⟩)
      (fun i hi => ⟨Nat.le_succ i, hsym i hi, fun x l h => h i le_rfl (Nat.lt_succ_self i)⟩) k hk |>.2
  -- the filter provides a trajectory for every final costate
  have traj : ∀ j < N, ∀ l' : n → ℝ, ∃ x l : ℕ → n → ℝ, x 0 = 0 ∧ l (j + 1) = l' ∧ x (j + 1) = (kf j).m + (kf j).P *ᵥ l' ∧
      ∀ i, 0 ≤ i → i < j + 1 → (e i).Rel (x i) (l i) (x (i + 1)) (l (i + 1)) := by
    intro j
    induction j with
    | zero =>
      intro _ l'
      refine ⟨fun i => if i = 0 then 0 else (kf 0).m + (kf 0).P *ᵥ l', fun i => if i = 0 then (e 0).Aᵀ *ᵥ l' + (e 0).eta else l',
        rfl, rfl, rfl, fun i _ hi => ?_⟩
      have : i = 0 := by omega
      subst this
      refine ⟨?_, ?_⟩
      · simp [hb, hC]
      · simp
    | succ j ih =>
      intro hj l'
      have hstep : ∃ l, (e (j + 1)).Rel ((kf j).m + (kf j).P *ᵥ l) l ((kf (j + 1)).m + (kf (j + 1)).P *ᵥ l') l' := by
        have hr := r.upd (j + 1)
        rw [r.succ_m, r.succ_P] at hr
        have ho := hok j hj
        rw [he j hj, hr]
        unfold StepOk at ho
        rw [r.succ_P] at ho
        unfold stepUpdate runElem
        cases hz : Z (j + 1) with
        | some z => exact reset_step _ _ _ _ _ _
        | none => exact measure_step (hQ j hj) (hP j hj) (ho hz).1 (ho hz).2 l'
      obtain ⟨l1, hl1⟩ := hstep
      obtain ⟨x, l, hx0, hl, hx, h⟩ := ih (by omega) l1
      refine ⟨fun i => if i ≤ j + 1 then x i else (kf (j + 1)).m + (kf (j + 1)).P *ᵥ l', fun i => if i ≤ j + 1 then l i else l', ?_, ?_, ?_,
        fun i _ hi => ?_⟩
      · simpa using hx0
      · simp
      · simp
      · by_cases hij : i < j + 1
        · have h1 : i ≤ j + 1 := hij.le
          have h2 : i + 1 ≤ j + 1 := hij
          simp only [h1, h2, if_true]
          exact h i (Nat.zero_le i) hij
        · have : i = j + 1 := by omega
          subst this
          have h3 : ¬ (j + 1 + 1 ≤ j + 1) := by omega
          simp only [le_refl, if_true, h3, if_false, hx, hl]
          exact hl1
  have key : ∀ l' : n → ℝ, (assocScanGet KElem.combine N e k).b + (assocScanGet KElem.combine N e k).C *ᵥ l' = (kf k).m + (kf k).P *ᵥ l' := by
    intro l'
    obtain ⟨x, l, hx0, hl, hx, h⟩ := traj k hk l'
    have := (hW.2 x l h).1
    rw [hx0, hl, hx, mulVec_zero, zero_add] at this
    exact this.symm
  have kb := key 0
  rw [mulVec_zero, mulVec_zero, add_zero, add_zero] at kb
  refine ⟨kb, Matrix.ext_of_mulVec_single fun i => ?_⟩
  have := key (Pi.single i 1)
  rw [kb] at this
  exact add_left_cancel this

end Verif
