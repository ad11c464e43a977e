import Verif.Lemmas.Assoc
import Verif.Lemmas.Run
import Verif.Lemmas.Exact

/-!
# One combination with a measurement element is one Kalman step

and the whole prefix is the whole filter run; the suffix of smoothing elements is the smoother run.
-/

set_option linter.unusedSectionVars false

namespace Verif
open Matrix

variable {n : Type} [Fintype n] [DecidableEq n]

section one
variable {m : Type*}

theorem inv_fin_one (S : Matrix (Fin 1) (Fin 1) ℝ) : S⁻¹ = (S 0 0)⁻¹ • 1 := by
  rw [Matrix.inv_subsingleton]
  ext i j
  fin_cases i; fin_cases j
  simp

theorem solve_fin_one (S : Matrix (Fin 1) (Fin 1) ℝ) (B : Matrix (Fin 1) m ℝ) : solve S B = (S 0 0)⁻¹ • B := by
  unfold solve; rw [inv_fin_one, Matrix.smul_mul, Matrix.one_mul]

theorem solveVec_fin_one (S : Matrix (Fin 1) (Fin 1) ℝ) (b : Fin 1 → ℝ) : solveVec S b = (S 0 0)⁻¹ • b := by
  unfold solveVec; rw [inv_fin_one, smul_mulVec, one_mulVec]

theorem col_mulVec (H : Matrix (Fin 1) n ℝ) (z : Fin 1 → ℝ) : Hᵀ *ᵥ z = z 0 • H 0 := by
  funext i
  simp [mulVec, dotProduct, mul_comm]

theorem row_mulVec (H : Matrix (Fin 1) n ℝ) (x : n → ℝ) : (H *ᵥ x) 0 = H 0 ⬝ᵥ x := rfl

end one

section measure
variable (Phi Q : Matrix n n ℝ) (H : Matrix (Fin 1) n ℝ) (y r : ℝ)

/-- the innovation variance of a fresh measurement of the noise alone -/
noncomputable def freshS : ℝ := (H * Q * Hᵀ) 0 0 + r

theorem measure_A (x : n → ℝ) : (KElem.measure Phi Q H y r).A *ᵥ x =
    Phi *ᵥ x - ((freshS Q H r)⁻¹ * (H 0 ⬝ᵥ Phi *ᵥ x)) • Q *ᵥ H 0 := by
  simp only [KElem.measure, solve_fin_one, transpose_smul, transpose_transpose]
  rw [← mulVec_mulVec, sub_mulVec, one_mulVec, ← mulVec_mulVec, smul_mulVec, ← mulVec_mulVec, col_mulVec, row_mulVec, mulVec_smul,
    smul_smul]
  rfl

theorem measure_b : (KElem.measure Phi Q H y r).b = ((freshS Q H r)⁻¹ * y) • Q *ᵥ H 0 := by
  simp only [KElem.measure, solve_fin_one, transpose_smul, transpose_transpose]
  rw [smul_mulVec, ← mulVec_mulVec, col_mulVec, mulVec_smul, smul_smul]
  rfl

theorem measure_C (l : n → ℝ) : (KElem.measure Phi Q H y r).C *ᵥ l =
    Q *ᵥ l - ((freshS Q H r)⁻¹ * (H 0 ⬝ᵥ Q *ᵥ l)) • Q *ᵥ H 0 := measure_A Q Q H y r l

theorem measure_At (hQ : Qᵀ = Q) (l : n → ℝ) : (KElem.measure Phi Q H y r).Aᵀ *ᵥ l =
    Phiᵀ *ᵥ l - ((freshS Q H r)⁻¹ * (H 0 ⬝ᵥ Q *ᵥ l)) • Phiᵀ *ᵥ H 0 := by
  simp only [KElem.measure, solve_fin_one, transpose_smul, transpose_transpose]
  rw [transpose_mul, transpose_sub, transpose_one, transpose_mul, transpose_smul, transpose_mul, transpose_transpose, hQ,
    ← mulVec_mulVec, sub_mulVec, one_mulVec, Matrix.mul_smul, smul_mulVec, ← mulVec_mulVec, ← mulVec_mulVec, col_mulVec, row_mulVec,
    mulVec_sub, mulVec_smul, mulVec_smul, smul_smul]
  rfl

theorem measure_eta : (KElem.measure Phi Q H y r).eta = ((freshS Q H r)⁻¹ * y) • Phiᵀ *ᵥ H 0 := by
  simp only [KElem.measure, solveVec_fin_one]
  rw [mulVec_smul, ← mulVec_mulVec, col_mulVec, mulVec_smul, smul_smul]
  rfl

theorem measure_J (x : n → ℝ) : (KElem.measure Phi Q H y r).J *ᵥ x =
    ((freshS Q H r)⁻¹ * (H 0 ⬝ᵥ Phi *ᵥ x)) • Phiᵀ *ᵥ H 0 := by
  simp only [KElem.measure, solve_fin_one]
  rw [Matrix.mul_smul, smul_mulVec, ← mulVec_mulVec, transpose_mul, transpose_transpose, transpose_transpose, ← mulVec_mulVec,
    ← mulVec_mulVec, col_mulVec, row_mulVec, mulVec_smul, smul_smul]
  rfl

variable {Phi Q H y r}

theorem measure_valid (hQ : Q.PosSemidef) (hr : 0 ≤ r) (hs : 0 < freshS Q H r) : (KElem.measure Phi Q H y r).Valid := by
  constructor
  · have h := update_psd' (y := 0) (mPred := 0) hQ hr hs.ne'
    have : (KElem.measure Phi Q H y r).C = (kalmanUpdate H r 0 0 Q).P := by
      refine Matrix.ext_of_mulVec_single fun i => ?_
      rw [measure_C]
      simp only [kalmanUpdate, solve_fin_one, transpose_smul, transpose_transpose]
      have e1 : (Q * Hᵀ)ᵀ = H * Q := by rw [transpose_mul, transpose_transpose, psd_symm hQ]
      rw [sub_mulVec, e1, Matrix.smul_mul, Matrix.smul_mul, smul_mulVec, Matrix.mul_smul, smul_mulVec, ← mulVec_mulVec, ← mulVec_mulVec,
        ← mulVec_mulVec, ← mulVec_mulVec, col_mulVec, mulVec_smul, smul_smul, smul_smul]
      congr 2
      have e2 : ∀ (M : Matrix (Fin 1) (Fin 1) ℝ) (z : Fin 1 → ℝ), (M *ᵥ z) 0 = M 0 0 * z 0 := by
        intro M z; simp [mulVec, dotProduct]
      rw [e2]
      change (freshS Q H r)⁻¹ * _ = (freshS Q H r)⁻¹ * (freshS Q H r)⁻¹ * (freshS Q H r * (H *ᵥ Q *ᵥ Pi.single i 1) 0)
      rw [row_mulVec]
      field_simp
    rw [this]; exact h
  · rw [psd_iff]
    constructor
    · simp only [KElem.measure, solve_fin_one]
      rw [Matrix.mul_smul, transpose_smul, transpose_mul, transpose_transpose]
    · intro x
      rw [measure_J, dotProduct_smul, smul_eq_mul]
      have : x ⬝ᵥ Phiᵀ *ᵥ H 0 = H 0 ⬝ᵥ Phi *ᵥ x := by
        rw [dotProduct_mulVec, vecMul_transpose, dotProduct_comm]
      rw [this]
      have := inv_pos.2 hs
      nlinarith [mul_self_nonneg (H 0 ⬝ᵥ Phi *ᵥ x)]

/-- **one step.** -/
theorem combine_measure {p : KElem n} (hp : p.Valid) (hQ : Q.PosSemidef) (hr : 0 ≤ r) (hs : 0 < freshS Q H r) :
    (p.combine (KElem.measure Phi Q H y r)).b = (kalmanUpdate H r y (Phi *ᵥ p.b) (Phi * p.C * Phiᵀ + Q)).m ∧
    (p.combine (KElem.measure Phi Q H y r)).C = (kalmanUpdate H r y (Phi *ᵥ p.b) (Phi * p.C * Phiᵀ + Q)).P := by
  set e := KElem.measure Phi Q H y r with he
  set m := Phi *ᵥ p.b with hm
  set P := Phi * p.C * Phiᵀ + Q with hP
  have hv : e.Valid := measure_valid hQ hr hs
  set s := freshS Q H r with hsd
  have hPp : P.PosSemidef := (psd_conj hp.1 _).add hQ
  have hsP : 0 < (H * P * Hᵀ) 0 0 + r := by
    have h1 : (H * P * Hᵀ) 0 0 = (H * (Phi * p.C * Phiᵀ) * Hᵀ) 0 0 + (H * Q * Hᵀ) 0 0 := by
      rw [hP, Matrix.mul_add, Matrix.add_mul, Matrix.add_apply]
    have h2 := psd_quad (psd_conj hp.1 Phi) H
    have h3 : s = (H * Q * Hᵀ) 0 0 + r := rfl
    linarith
  set S := (H * P * Hᵀ) 0 0 + r with hSd
  have hS' : S = H 0 ⬝ᵥ P *ᵥ H 0 + r := by rw [hSd, mul_row_apply]
  have hs' : s = H 0 ⬝ᵥ Q *ᵥ H 0 + r := by rw [hsd, freshS, mul_row_apply]
  have key : ∀ l : n → ℝ, (p.combine e).b + (p.combine e).C *ᵥ l =
      (kalmanUpdate H r y m P).m + (kalmanUpdate H r y m P).P *ᵥ l := by
    intro l
    obtain ⟨l0, x1, l1, x2, h1, h2⟩ := KElem.exists_mid hp hv 0 l
    have h3 := (KElem.combine_rel hp hv h1 h2).1
    rw [mulVec_zero, zero_add] at h3
    rw [← h3]
    obtain ⟨a1, -⟩ := h1
    obtain ⟨b1, b2⟩ := h2
    rw [mulVec_zero, zero_add] at a1
    rw [he, measure_A, measure_b, measure_C] at b1
    rw [he, measure_At _ _ _ _ _ (psd_symm hQ), measure_eta, measure_J] at b2
    set u := s⁻¹ * (y - H 0 ⬝ᵥ Phi *ᵥ x1 - H 0 ⬝ᵥ Q *ᵥ l) with hu
    have hx2 : x2 = Phi *ᵥ x1 + Q *ᵥ (l + u • H 0) := by
      rw [b1, mulVec_add, mulVec_smul, hu]
      have : s⁻¹ * (y - H 0 ⬝ᵥ Phi *ᵥ x1 - H 0 ⬝ᵥ Q *ᵥ l) = s⁻¹ * y - s⁻¹ * (H 0 ⬝ᵥ Phi *ᵥ x1) - s⁻¹ * (H 0 ⬝ᵥ Q *ᵥ l) := by ring
      rw [this, sub_smul, sub_smul]
      abel
    have hl1 : l1 = Phiᵀ *ᵥ (l + u • H 0) := by
      rw [b2, mulVec_add, mulVec_smul, hu]
      have : s⁻¹ * (y - H 0 ⬝ᵥ Phi *ᵥ x1 - H 0 ⬝ᵥ Q *ᵥ l) = s⁻¹ * y - s⁻¹ * (H 0 ⬝ᵥ Phi *ᵥ x1) - s⁻¹ * (H 0 ⬝ᵥ Q *ᵥ l) := by ring
      rw [this, sub_smul, sub_smul]
      abel
    have hx2' : x2 = m + P *ᵥ (l + u • H 0) := by
      rw [hx2, a1, hl1, mulVec_add Phi, hm, hP, add_mulVec, ← mulVec_mulVec, ← mulVec_mulVec]
      abel
    have hu' : r * u = y - H 0 ⬝ᵥ x2 := by
      rw [hx2, mulVec_add, mulVec_smul, dotProduct_add, dotProduct_add, dotProduct_smul, smul_eq_mul]
      have : s * u = y - H 0 ⬝ᵥ Phi *ᵥ x1 - H 0 ⬝ᵥ Q *ᵥ l := by rw [hu]; field_simp
      rw [hs'] at this
      linarith
    have hu2 : u = S⁻¹ * (y - H 0 ⬝ᵥ m - H 0 ⬝ᵥ P *ᵥ l) := by
      rw [hx2', mulVec_add, mulVec_smul, dotProduct_add, dotProduct_add, dotProduct_smul, smul_eq_mul] at hu'
      have : S * u = y - H 0 ⬝ᵥ m - H 0 ⬝ᵥ P *ᵥ l := by rw [hS']; linarith
      rw [← this]; field_simp
    rw [hx2', mulVec_add, mulVec_smul, hu2]
    have hK : (solve ((Matrix.of fun i j => (H * P * Hᵀ) i j + r : Matrix (Fin 1) (Fin 1) ℝ))ᵀ (P * Hᵀ)ᵀ)ᵀ = S⁻¹ • (P * Hᵀ) := by
      rw [solve_fin_one, transpose_smul, transpose_transpose]; rfl
    simp only [kalmanUpdate, hK]
    have e1 : (P * Hᵀ)ᵀ = H * P := by rw [transpose_mul, transpose_transpose, psd_symm hPp]
    have e2 : ∀ (M : Matrix (Fin 1) (Fin 1) ℝ) (z : Fin 1 → ℝ), (M *ᵥ z) 0 = M 0 0 * z 0 := by
      intro M z; simp [mulVec, dotProduct]
    rw [sub_mulVec, transpose_smul, e1, Matrix.smul_mul, Matrix.smul_mul, smul_mulVec, smul_mulVec, Matrix.mul_smul, smul_mulVec,
      ← mulVec_mulVec, ← mulVec_mulVec, ← mulVec_mulVec, ← mulVec_mulVec, ← mulVec_mulVec, col_mulVec, col_mulVec, mulVec_smul,
      mulVec_smul, smul_smul, smul_smul, smul_smul, e2]
    have e3 : S⁻¹ * S⁻¹ * ((Matrix.of fun i j => (H * P * Hᵀ) i j + r : Matrix (Fin 1) (Fin 1) ℝ) 0 0 * (H *ᵥ P *ᵥ l) 0) =
        S⁻¹ * (H 0 ⬝ᵥ P *ᵥ l) := by
      change S⁻¹ * S⁻¹ * (S * (H 0 ⬝ᵥ P *ᵥ l)) = _
      field_simp
    rw [e3, row_mulVec]
    have e4 : S⁻¹ * (y - H 0 ⬝ᵥ m - H 0 ⬝ᵥ P *ᵥ l) = S⁻¹ * (y - H 0 ⬝ᵥ m) - S⁻¹ * (H 0 ⬝ᵥ P *ᵥ l) := by ring
    rw [e4, sub_smul]
    abel
  have kb := key 0
  rw [mulVec_zero, mulVec_zero, add_zero, add_zero] at kb
  refine ⟨kb, Matrix.ext_of_mulVec_single fun i => ?_⟩
  have := key (Pi.single i 1)
  rw [kb] at this
  exact add_left_cancel this

end measure

/-! ## Resets -/

/-- the element of an exposure start: transition, then reset -/
def resetElem (Z Phi Q : Matrix n n ℝ) : KElem n := ⟨Z * Phi, 0, Z * Q * Zᵀ, 0, 0⟩

theorem resetElem_valid {Z Phi Q : Matrix n n ℝ} (hQ : Q.PosSemidef) : (resetElem Z Phi Q).Valid :=
  ⟨psd_conj hQ _, Matrix.PosSemidef.zero⟩

theorem combine_reset {p : KElem n} (hp : p.Valid) {Z Phi Q : Matrix n n ℝ} (hQ : Q.PosSemidef) :
    (p.combine (resetElem Z Phi Q)).b = Z *ᵥ (Phi *ᵥ p.b) ∧
    (p.combine (resetElem Z Phi Q)).C = Z * (Phi * p.C * Phiᵀ + Q) * Zᵀ := by
  constructor
  · show (Z * Phi) *ᵥ solveVec (1 + p.C * 0) (p.b + p.C *ᵥ 0) + 0 = _
    rw [Matrix.mul_zero, add_zero, mulVec_zero, add_zero, add_zero, solveVec, inv_one, one_mulVec, mulVec_mulVec]
  · rw [KElem.combine_C hp (resetElem_valid hQ)]
    show (Z * Phi) * solve (1 + p.C * 0) p.C * (Z * Phi)ᵀ + Z * Q * Zᵀ = _
    rw [Matrix.mul_zero, add_zero, solve, inv_one, Matrix.one_mul, transpose_mul, Matrix.mul_add, Matrix.add_mul]
    simp only [Matrix.mul_assoc]

/-! ## Whole runs -/

/-- the element for step `k + 1` of a run -/
noncomputable def runElem (T Q : Matrix n n ℝ) (Z : Option (Matrix n n ℝ)) (H : Matrix (Fin 1) n ℝ) (R y : ℝ) : KElem n :=
  match Z with
  | some Z => resetElem Z T Q
  | none => KElem.measure T Q H y R

/-- side conditions under which the element of a step is well defined: no system solved for it is singular -/
def ElemOk (Q : Matrix n n ℝ) (Z : Option (Matrix n n ℝ)) (H : Matrix (Fin 1) n ℝ) (R : ℝ) : Prop :=
  Q.PosSemidef ∧ (Z = none → 0 ≤ R ∧ 0 < freshS Q H R)

theorem runElem_valid {T Q : Matrix n n ℝ} {Z : Option (Matrix n n ℝ)} {H : Matrix (Fin 1) n ℝ} {R y : ℝ} (h : ElemOk Q Z H R) :
    (runElem T Q Z H R y).Valid := by
  cases Z with
  | some Z => exact resetElem_valid h.1
  | none => exact measure_valid h.1 (h.2 rfl).1 (h.2 rfl).2

theorem runElem_combine {p : KElem n} (hp : p.Valid) {T Q : Matrix n n ℝ} {Z : Option (Matrix n n ℝ)} {H : Matrix (Fin 1) n ℝ}
    {R y : ℝ} (h : ElemOk Q Z H R) :
    (p.combine (runElem T Q Z H R y)).b = (stepUpdate Z H R y (T *ᵥ p.b) (T * p.C * Tᵀ + Q)).m ∧
    (p.combine (runElem T Q Z H R y)).C = (stepUpdate Z H R y (T *ᵥ p.b) (T * p.C * Tᵀ + Q)).P := by
  cases Z with
  | some Z => exact combine_reset hp h.1
  | none => exact combine_measure hp h.1 (h.2 rfl).1 (h.2 rfl).2

/-- the scanned elements hold the filtered means and covariances -/
theorem prefix_run {P1 : Matrix n n ℝ} {T Q : ℕ → Matrix n n ℝ} {Z : ℕ → Option (Matrix n n ℝ)} {H : ℕ → Matrix (Fin 1) n ℝ}
    {R y : ℕ → ℝ} {kf : ℕ → FilterOut n} (r : Run P1 T Q Z H R y kf) {e : ℕ → KElem n} {N : ℕ} (h0 : (e 0).Valid)
    (hb : (e 0).b = (kf 0).m) (hC : (e 0).C = (kf 0).P)
    (hok : ∀ k, k + 1 < N → ElemOk (Q k) (Z (k + 1)) (H (k + 1)) (R (k + 1)))
    (he : ∀ k, k + 1 < N → e (k + 1) = runElem (T k) (Q k) (Z (k + 1)) (H (k + 1)) (R (k + 1)) (y (k + 1))) (k : ℕ) (hk : k < N) :
    (assocScanGet KElem.combine N e k).b = (kf k).m ∧ (assocScanGet KElem.combine N e k).C = (kf k).P := by
  have hval : ∀ j < N, (e j).Valid := by
    intro j hj
    cases j with
    | zero => exact h0
    | succ j => rw [he j hj]; exact runElem_valid (hok j hj)
  rw [assocScanGet_eq KElem.combine KElem.Valid (fun a b ha hb => KElem.combine_valid ha hb)
    (fun a b c ha hb hc => KElem.assoc ha hb hc) N e hval k hk]
  have key : ∀ j < N, (foldPrefix KElem.combine e j).Valid ∧ (foldPrefix KElem.combine e j).b = (kf j).m ∧
      (foldPrefix KElem.combine e j).C = (kf j).P := by
    intro j
    induction j with
    | zero => intro _; exact ⟨h0, hb, hC⟩
    | succ j ih =>
      intro hj
      obtain ⟨v, ib, iC⟩ := ih (by omega)
      refine ⟨KElem.combine_valid v (hval _ hj), ?_⟩
      have := runElem_combine v (T := T j) (y := y (j + 1)) (hok j hj)
      rw [ib, iC, ← r.succ_m, ← r.succ_P, ← r.upd] at this
      rw [foldPrefix, he j hj]
      exact this
  exact (key k hk).2

/-- the system solved at every step of a valid scan is regular, in whatever order the elements are combined -/
theorem combine_regular {a b : KElem n} (ha : a.Valid) (hb : b.Valid) : IsUnit (1 + a.C * b.J).det ∧ IsUnit (1 + b.J * a.C).det :=
  ⟨psd_mul_kernel ha.1 hb.2, psd_mul_kernel hb.2 ha.1⟩

/-! ## Smoothing -/

/-- combining a smoothing element with the smoothed next state is one smoother step -/
theorem combine_generic {Phi Q P Ps Pp : Matrix n n ℝ} {mu ms mp : n → ℝ} (hP : Pᵀ = P) (hPp : Pp = Phi * P * Phiᵀ + Q)
    (hmp : mp = Phi *ᵥ mu) (hs : Ppᵀ = Pp) (hdet : IsUnit Pp.det) (nxt : BElem n) (hg : nxt.g = ms) (hL : nxt.L = Ps) :
    (nxt.combine (BElem.generic Phi Q mu P)).g = mu + (solve Ppᵀ (P * Phiᵀ)ᵀ)ᵀ *ᵥ (ms - mp) ∧
    (nxt.combine (BElem.generic Phi Q mu P)).L = P + (solve Ppᵀ (P * Phiᵀ)ᵀ)ᵀ * (Ps - Pp) * ((solve Ppᵀ (P * Phiᵀ)ᵀ)ᵀ)ᵀ := by
  simp only [BElem.combine, BElem.generic]
  rw [← hPp]
  set G := (solve Ppᵀ (P * Phiᵀ)ᵀ)ᵀ with hG
  have h1 : G * Pp = P * Phiᵀ := solve_gain hdet hG
  clear_value G
  have h2 : Pp * Gᵀ = Phi * P := by
    have := congrArg transpose h1
    rwa [transpose_mul, hs, transpose_mul, transpose_transpose, hP] at this
  constructor
  · rw [hg, hmp, mulVec_sub]; abel
  · rw [hL, Matrix.mul_sub, Matrix.sub_mul, Matrix.mul_assoc G Pp, h2, ← Matrix.mul_assoc G Phi P]; abel

theorem BElem.scan_suffix (f : BElem n → BElem n → BElem n) (hf : f = BElem.combine) (e : Arr (BElem n)) (k : ℕ) (hk : k < e.len) :
    (associativeScan f e true).get k = foldPrefix f (fun i => e.get (e.len - 1 - i)) (e.len - 1 - k) := by
  subst hf
  have := assocScanGet_eq (BElem.combine (n := n)) (fun _ => True) (fun _ _ _ _ => trivial)
    (fun a b c _ _ _ => BElem.assoc a b c) e.len (Arr.rev e).get (fun _ _ => trivial) (e.len - 1 - k) (by omega)
  exact this

/-- the scanned smoothing elements hold the smoothed means and covariances -/
theorem suffix_back {N : ℕ} {T Q : ℕ → Matrix n n ℝ} {Z : ℕ → Option (Matrix n n ℝ)} {kf : ℕ → FilterOut n} {sm : ℕ → StateMP n}
    (s : Back N T Z kf sm) (e : Arr (BElem n)) (hN : e.len = N)
    (hlast : e.get (N - 1) = BElem.last (kf (N - 1)).m (kf (N - 1)).P)
    (hgen : ∀ k, k + 1 < N → e.get k = BElem.generic (T k) (Q k) (Run.base Z kf k).m (Run.base Z kf k).P)
    (hsym : ∀ k, k + 1 < N → ((Run.base Z kf k).P)ᵀ = (Run.base Z kf k).P)
    (hm : ∀ k, k + 1 < N → (kf (k + 1)).mPred = T k *ᵥ (Run.base Z kf k).m)
    (hP : ∀ k, k + 1 < N → (kf (k + 1)).PPred = T k * (Run.base Z kf k).P * (T k)ᵀ + Q k)
    (hpsym : ∀ k, k + 1 < N → (kf (k + 1)).PPredᵀ = (kf (k + 1)).PPred)
    (hdet : ∀ k, k + 1 < N → IsUnit (kf (k + 1)).PPred.det) (k : ℕ) (hk : k < N) :
    ((associativeScan BElem.combine e true).get k).g = (sm k).m ∧ ((associativeScan BElem.combine e true).get k).L = (sm k).P := by
  rw [BElem.scan_suffix _ rfl e k (by omega), hN]
  have key : ∀ d, d < N → (foldPrefix BElem.combine (fun i => e.get (N - 1 - i)) d).g = (sm (N - 1 - d)).m ∧
      (foldPrefix BElem.combine (fun i => e.get (N - 1 - i)) d).L = (sm (N - 1 - d)).P := by
    intro d
    induction d with
    | zero =>
      intro _
      show (e.get (N - 1 - 0)).g = _ ∧ (e.get (N - 1 - 0)).L = _
      rw [Nat.sub_zero, hlast, s.last_m, s.last_P]
      exact ⟨rfl, rfl⟩
    | succ d ih =>
      intro hd
      obtain ⟨i1, i2⟩ := ih (by omega)
      have e1 : N - 1 - d = N - 1 - (d + 1) + 1 := by omega
      have hk : N - 1 - (d + 1) + 1 < N := by omega
      rw [e1] at i1 i2
      rw [foldPrefix, hgen _ hk, s.step_m _ hk, s.step_P _ hk]
      exact combine_generic (hsym _ hk) (hP _ hk) (hm _ hk) (hpsym _ hk) (hdet _ hk) _ i1 i2
  have := key (N - 1 - k) (by omega)
  have e2 : N - 1 - (N - 1 - k) = k := by omega
  rwa [e2] at this

end Verif
