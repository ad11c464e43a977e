import Verif.Model.Parallel
import Verif.Lemmas.PosDef
import Verif.Lemmas.Loewner

/-!
# The scan operators are associative

An element `(A, b, C, eta, J)` is read as the affine relation `x' = A x + b + C l'`, `l = Aᵀ l' + eta - J x` between a state with
its costate `(x, l)` and the next pair `(x', l')`. Combining two elements composes the relations, so associativity is inherited
from composition.
-/

set_option linter.unusedSectionVars false

namespace Verif
open Matrix

section scanning
variable {α : Type*}

/-- the left fold `e 0 * e 1 * ... * e j` -/
def foldPrefix (f : α → α → α) (e : ℕ → α) : ℕ → α
  | 0 => e 0
  | j + 1 => f (foldPrefix f e j) (e (j + 1))

theorem foldPrefix_pairs (f : α → α → α) (V : α → Prop) (hV : ∀ a b, V a → V b → V (f a b))
    (hA : ∀ a b c, V a → V b → V c → f (f a b) c = f a (f b c)) (e : ℕ → α) (i : ℕ) (he : ∀ j ≤ 2 * i + 1, V (e j)) :
    foldPrefix f (fun i => f (e (2 * i)) (e (2 * i + 1))) i = foldPrefix f e (2 * i + 1) ∧ V (foldPrefix f e (2 * i + 1)) := by
  induction i with
  | zero => exact ⟨rfl, hV _ _ (he 0 (by omega)) (he 1 (by omega))⟩
  | succ i ih =>
    obtain ⟨h1, h2⟩ := ih (fun j hj => he j (by omega))
    have e1 : 2 * (i + 1) = 2 * i + 1 + 1 := by ring
    have hv1 : V (e (2 * i + 1 + 1)) := he _ (by omega)
    have hv2 : V (e (2 * i + 1 + 1 + 1)) := he _ (by omega)
    constructor
    · show f (foldPrefix f _ i) (f (e (2 * (i + 1))) (e (2 * (i + 1) + 1))) = _
      rw [h1, e1, ← hA _ _ _ h2 hv1 hv2]
      rfl
    · rw [e1]
      exact hV _ _ (hV _ _ h2 hv1) hv2

/-- for an operator that is associative on a closed set, `jax.lax.associative_scan` computes the prefixes -/
theorem assocScanGet_eq (f : α → α → α) (V : α → Prop) (hV : ∀ a b, V a → V b → V (f a b))
    (hA : ∀ a b c, V a → V b → V c → f (f a b) c = f a (f b c)) (n : ℕ) : ∀ (e : ℕ → α), (∀ j < n, V (e j)) →
    ∀ j < n, assocScanGet f n e j = foldPrefix f e j := by
  induction n using Nat.strong_induction_on with
  | _ n ih =>
    intro e he j hj
    rw [assocScanGet]
    split_ifs with h
    · obtain rfl : j = 0 := by omega
      rfl
    · have hpair : ∀ i < n / 2, V (f (e (2 * i)) (e (2 * i + 1))) := fun i hi => hV _ _ (he _ (by omega)) (he _ (by omega))
      have hodd : ∀ i < n / 2, assocScanGet f (n / 2) (fun i => f (e (2 * i)) (e (2 * i + 1))) i = foldPrefix f e (2 * i + 1) := by
        intro i hi
        rw [ih (n / 2) (by omega) _ hpair i hi]
        exact (foldPrefix_pairs f V hV hA e i (fun j hj => he j (by omega))).1
      dsimp only
      split_ifs with h2 h3
      · have : j = 0 := by omega
        rw [this]; rfl
      · have e1 : j = 2 * (j / 2 - 1) + 1 + 1 := by omega
        have e2 : 2 * (j / 2) = j := by omega
        rw [hodd _ (by omega), e2]
        have e3 : foldPrefix f e (2 * (j / 2 - 1) + 1 + 1) =
            f (foldPrefix f e (2 * (j / 2 - 1) + 1)) (e (2 * (j / 2 - 1) + 1 + 1)) := rfl
        rw [← e1] at e3
        exact e3.symm
      · have e1 : 2 * (j / 2) + 1 = j := by omega
        rw [hodd _ (by omega), e1]

/-- `v` is the value of some bracketing of `e i * ... * e (j - 1)` -/
inductive Bracketing (f : α → α → α) (e : ℕ → α) : ℕ → ℕ → α → Prop
  | leaf (i : ℕ) : Bracketing f e i (i + 1) (e i)
  | node {i j k : ℕ} {a b : α} (ha : Bracketing f e i j a) (hb : Bracketing f e j k b) : Bracketing f e i k (f a b)

theorem Bracketing.lt {f : α → α → α} {e : ℕ → α} {i j : ℕ} {a : α} (h : Bracketing f e i j a) : i < j := by
  induction h with
  | leaf i => omega
  | node _ _ h1 h2 => omega

theorem Bracketing.eq_fold {f : α → α → α} {V : α → Prop} (hV : ∀ a b, V a → V b → V (f a b))
    (hA : ∀ a b c, V a → V b → V c → f (f a b) c = f a (f b c)) {e : ℕ → α} {i j : ℕ} {a : α} (h : Bracketing f e i j a)
    (he : ∀ m, i ≤ m → m < j → V (e m)) : a = foldPrefix f (fun m => e (i + m)) (j - i - 1) ∧ V a := by
  induction h with
  | leaf i =>
    have : i + 1 - i - 1 = 0 := by omega
    rw [this]
    exact ⟨rfl, he i le_rfl (by omega)⟩
  | @node i j k a b ha hb h1 h2 =>
    have l1 := ha.lt
    have l2 := hb.lt
    obtain ⟨ea, va⟩ := h1 (fun m hm hm' => he m hm (by omega))
    obtain ⟨eb, vb⟩ := h2 (fun m hm hm' => he m (by omega) hm')
    refine ⟨?_, hV _ _ va vb⟩
    have key : ∀ d, j + d < k → f a (foldPrefix f (fun m => e (j + m)) d) = foldPrefix f (fun m => e (i + m)) (j - i + d) ∧
        V (foldPrefix f (fun m => e (j + m)) d) := by
      intro d
      induction d with
      | zero =>
        intro hd
        refine ⟨?_, he j (by omega) (by omega)⟩
        have e1 : j - i + 0 = (j - i - 1) + 1 := by omega
        have e2 : i + (j - i - 1 + 1) = j + 0 := by omega
        have e3 : foldPrefix f (fun m => e (i + m)) (j - i - 1 + 1) =
            f (foldPrefix f (fun m => e (i + m)) (j - i - 1)) (e (i + (j - i - 1 + 1))) := rfl
        rw [e1, e3, ← ea, e2]
        rfl
      | succ d ih =>
        intro hd
        obtain ⟨i1, i2⟩ := ih (by omega)
        have hv : V (e (j + (d + 1))) := he _ (by omega) hd
        refine ⟨?_, hV _ _ i2 hv⟩
        rw [foldPrefix, ← hA _ _ _ va i2 hv, i1]
        have e1 : j - i + (d + 1) = (j - i + d) + 1 := by omega
        rw [e1, foldPrefix]
        have e2 : i + (j - i + d + 1) = j + (d + 1) := by omega
        rw [e2]
    rw [eb, (key (k - j - 1) (by omega)).1]
    congr 1
    omega

theorem foldPrefix_bracketing (f : α → α → α) (e : ℕ → α) (j : ℕ) : Bracketing f e 0 (j + 1) (foldPrefix f e j) := by
  induction j with
  | zero => exact .leaf 0
  | succ j ih => exact .node ih (.leaf (j + 1))

end scanning

variable {n : Type} [Fintype n] [DecidableEq n]

/-! ## Backward elements -/

theorem BElem.assoc (a b c : BElem n) : (a.combine b).combine c = a.combine (b.combine c) := by
  unfold BElem.combine
  simp only [BElem.mk.injEq]
  refine ⟨by rw [Matrix.mul_assoc], ?_, ?_⟩
  · rw [mulVec_add, mulVec_mulVec, add_assoc]
  · simp only [transpose_mul, Matrix.mul_add, Matrix.add_mul, Matrix.mul_assoc, add_assoc]

/-! ## Positive semidefinite `C`, `J` -/

section psd
variable {C J : Matrix n n ℝ}

theorem psd_mul_kernel (hC : C.PosSemidef) (hJ : J.PosSemidef) : IsUnit (1 + C * J).det := by
  rw [isUnit_iff_ne_zero]
  intro hdet
  obtain ⟨x, hx, h0⟩ := Matrix.exists_mulVec_eq_zero_iff.2 hdet
  rw [add_mulVec, one_mulVec, ← mulVec_mulVec] at h0
  have hCs := (psd_iff C).1 hC
  have hJs := (psd_iff J).1 hJ
  have e1 : (J *ᵥ x) ⬝ᵥ x + (J *ᵥ x) ⬝ᵥ C *ᵥ (J *ᵥ x) = 0 := by
    rw [← dotProduct_add, h0, dotProduct_zero]
  have e2 := hCs.2 (J *ᵥ x)
  have e3 := hJs.2 x
  rw [dotProduct_comm] at e3
  have e4 : x ⬝ᵥ J *ᵥ x = 0 := by rw [dotProduct_comm]; linarith
  have e5 : J *ᵥ x = 0 := by
    have hc : ∀ z, (z ⬝ᵥ J *ᵥ x) ^ 2 ≤ 0 := fun z => by
      have := psd_cauchy hJ z x
      rwa [e4, mul_zero] at this
    have := hc (J *ᵥ x)
    have h5 : (J *ᵥ x) ⬝ᵥ (J *ᵥ x) = 0 := by nlinarith [sq_nonneg ((J *ᵥ x) ⬝ᵥ (J *ᵥ x))]
    exact dotProduct_self_eq_zero.1 h5
  rw [e5, mulVec_zero, add_zero] at h0
  exact hx h0

theorem solve_mul_cancel {m : Type*} {D : Matrix n n ℝ} (hD : IsUnit D.det) (B : Matrix n m ℝ) : D * solve D B = B := by
  unfold solve
  rw [← Matrix.mul_assoc, Matrix.mul_nonsing_inv _ hD, Matrix.one_mul]

theorem solveVec_cancel {D : Matrix n n ℝ} (hD : IsUnit D.det) (b : n → ℝ) : D *ᵥ solveVec D b = b := by
  unfold solveVec
  rw [mulVec_mulVec, Matrix.mul_nonsing_inv _ hD, one_mulVec]

/-- `(1 + C J)⁻¹ C` is positive semidefinite -/
theorem push_psd (hC : C.PosSemidef) (hJ : J.PosSemidef) : (solve (1 + C * J) C).PosSemidef := by
  have hD := psd_mul_kernel hC hJ
  have hE := psd_mul_kernel hJ hC
  have hCt := psd_symm hC
  have hJt := psd_symm hJ
  have hDt : (1 + C * J)ᵀ = 1 + J * C := by rw [transpose_add, transpose_one, transpose_mul, hCt, hJt]
  have e : solve (1 + C * J) C = (1 + C * J)⁻¹ * (C + C * J * C) * ((1 + C * J)⁻¹)ᵀ := by
    have e1 : C + C * J * C = C * (1 + J * C) := by rw [Matrix.mul_add, Matrix.mul_one, Matrix.mul_assoc]
    rw [e1, transpose_nonsing_inv, hDt, Matrix.mul_assoc, Matrix.mul_assoc, Matrix.mul_nonsing_inv _ hE, Matrix.mul_one]
    rfl
  rw [e]
  refine psd_conj (hC.add ?_) _
  have := psd_conj hJ C
  rwa [hCt] at this

end psd

/-! ## Forward elements -/

namespace KElem

/-- `C` and `J` are covariance-like -/
def Valid (e : KElem n) : Prop := e.C.PosSemidef ∧ e.J.PosSemidef

/-- the relation described by an element -/
def Rel (e : KElem n) (x l x' l' : n → ℝ) : Prop := x' = e.A *ᵥ x + e.b + e.C *ᵥ l' ∧ l = e.Aᵀ *ᵥ l' + e.eta - e.J *ᵥ x

theorem half_add (M : Matrix n n ℝ) (h : Mᵀ = M) : (0.5 : ℝ) • (M + Mᵀ) = M := by
  rw [h, ← two_smul ℝ M, smul_smul]
  norm_num

theorem raw_psd {e f : KElem n} (he : e.Valid) (hf : f.Valid) : (f.A * solve (1 + e.C * f.J) e.C * f.Aᵀ + f.C).PosSemidef ∧
    (e.Aᵀ * solve (1 + f.J * e.C) f.J * e.A + e.J).PosSemidef := by
  refine ⟨(psd_conj (push_psd he.1 hf.2) _).add hf.1, ?_⟩
  have := psd_conj (push_psd hf.2 he.1) e.Aᵀ
  rw [transpose_transpose] at this
  exact this.add he.2

theorem combine_C {e f : KElem n} (he : e.Valid) (hf : f.Valid) :
    (e.combine f).C = f.A * solve (1 + e.C * f.J) e.C * f.Aᵀ + f.C := half_add _ (psd_symm (raw_psd he hf).1)

theorem combine_J {e f : KElem n} (he : e.Valid) (hf : f.Valid) :
    (e.combine f).J = e.Aᵀ * solve (1 + f.J * e.C) f.J * e.A + e.J := half_add _ (psd_symm (raw_psd he hf).2)

theorem combine_valid {e f : KElem n} (he : e.Valid) (hf : f.Valid) : (e.combine f).Valid := by
  unfold Valid
  rw [combine_C he hf, combine_J he hf]
  exact raw_psd he hf

/-- combining elements composes their relations -/
theorem combine_rel {e f : KElem n} (he : e.Valid) (hf : f.Valid) {x l x' l' x'' l'' : n → ℝ} (h1 : e.Rel x l x' l')
    (h2 : f.Rel x' l' x'' l'') : (e.combine f).Rel x l x'' l'' := by
  obtain ⟨a1, a2⟩ := h1
  obtain ⟨b1, b2⟩ := h2
  have hD := psd_mul_kernel he.1 hf.2
  have hE := psd_mul_kernel hf.2 he.1
  have hDt : (1 + e.C * f.J)ᵀ = 1 + f.J * e.C := by
    rw [transpose_add, transpose_one, transpose_mul, psd_symm he.1, psd_symm hf.2]
  -- the intermediate state and costate
  have ex : x' = (1 + e.C * f.J)⁻¹ *ᵥ (e.A *ᵥ x + (e.b + e.C *ᵥ f.eta) + e.C *ᵥ (f.Aᵀ *ᵥ l'')) := by
    have : (1 + e.C * f.J) *ᵥ x' = e.A *ᵥ x + (e.b + e.C *ᵥ f.eta) + e.C *ᵥ (f.Aᵀ *ᵥ l'') := by
      rw [add_mulVec, one_mulVec, ← mulVec_mulVec]
      have e1 : e.C *ᵥ l' = e.C *ᵥ (f.Aᵀ *ᵥ l'') + e.C *ᵥ f.eta - e.C *ᵥ (f.J *ᵥ x') := by
        conv_lhs => rw [b2]
        rw [mulVec_sub, mulVec_add]
      have e2 : x' + e.C *ᵥ (f.J *ᵥ x') = (e.A *ᵥ x + e.b + e.C *ᵥ l') + e.C *ᵥ (f.J *ᵥ x') := by rw [← a1]
      rw [e2, e1]
      abel
    rw [← this, mulVec_mulVec, Matrix.nonsing_inv_mul _ hD, one_mulVec]
  have el : l' = (1 + f.J * e.C)⁻¹ *ᵥ (f.Aᵀ *ᵥ l'' + (f.eta - f.J *ᵥ e.b) - f.J *ᵥ (e.A *ᵥ x)) := by
    have : (1 + f.J * e.C) *ᵥ l' = f.Aᵀ *ᵥ l'' + (f.eta - f.J *ᵥ e.b) - f.J *ᵥ (e.A *ᵥ x) := by
      rw [add_mulVec, one_mulVec, ← mulVec_mulVec]
      have e1 : f.J *ᵥ x' = f.J *ᵥ (e.A *ᵥ x) + f.J *ᵥ e.b + f.J *ᵥ (e.C *ᵥ l') := by rw [a1, mulVec_add, mulVec_add]
      have e2 : l' + f.J *ᵥ (e.C *ᵥ l') = (f.Aᵀ *ᵥ l'' + f.eta - f.J *ᵥ x') + f.J *ᵥ (e.C *ᵥ l') := by rw [← b2]
      rw [e2, e1]
      abel
    rw [← this, mulVec_mulVec, Matrix.nonsing_inv_mul _ hE, one_mulVec]
  constructor
  · rw [combine_C he hf, b1, ex]
    show _ = (f.A * solve _ e.A) *ᵥ x + (f.A *ᵥ solveVec _ _ + f.b) + _
    unfold solve solveVec
    simp only [mulVec_add, add_mulVec, mulVec_mulVec, Matrix.mul_assoc]
    abel
  · rw [combine_J he hf, a2, el]
    show _ = (f.A * solve _ e.A)ᵀ *ᵥ l'' + (e.Aᵀ *ᵥ solveVec _ _ + e.eta) - _
    unfold solve solveVec
    simp only [transpose_mul, transpose_nonsing_inv, hDt, mulVec_add, mulVec_sub, add_mulVec, mulVec_mulVec, Matrix.mul_assoc]
    abel

/-- intermediate values always exist -/
theorem exists_mid {e f : KElem n} (he : e.Valid) (hf : f.Valid) (x l'' : n → ℝ) :
    ∃ l x' l' x'' : n → ℝ, e.Rel x l x' l' ∧ f.Rel x' l' x'' l'' := by
  have hE := psd_mul_kernel hf.2 he.1
  set l' := (1 + f.J * e.C)⁻¹ *ᵥ (f.Aᵀ *ᵥ l'' + (f.eta - f.J *ᵥ e.b) - f.J *ᵥ (e.A *ᵥ x)) with hl'
  have h1 : (1 + f.J * e.C) *ᵥ l' = f.Aᵀ *ᵥ l'' + (f.eta - f.J *ᵥ e.b) - f.J *ᵥ (e.A *ᵥ x) := by
    rw [hl', mulVec_mulVec, Matrix.mul_nonsing_inv _ hE, one_mulVec]
  refine ⟨e.Aᵀ *ᵥ l' + e.eta - e.J *ᵥ x, e.A *ᵥ x + e.b + e.C *ᵥ l', l', _, ⟨rfl, rfl⟩, rfl, ?_⟩
  rw [add_mulVec, one_mulVec, ← mulVec_mulVec] at h1
  rw [mulVec_add, mulVec_add]
  have h2 := eq_sub_of_add_eq h1
  conv_lhs => rw [h2]
  abel

/-- an element is determined by its relation -/
theorem ext_rel {e f : KElem n} (h : ∀ x l' : n → ℝ, ∃ l x' : n → ℝ, e.Rel x l x' l' ∧ f.Rel x l x' l') : e = f := by
  have hx : ∀ x l', e.A *ᵥ x + e.b + e.C *ᵥ l' = f.A *ᵥ x + f.b + f.C *ᵥ l' ∧
      e.Aᵀ *ᵥ l' + e.eta - e.J *ᵥ x = f.Aᵀ *ᵥ l' + f.eta - f.J *ᵥ x := by
    intro x l'
    obtain ⟨l, x', h1, h2⟩ := h x l'
    exact ⟨h1.1.symm.trans h2.1, h1.2.symm.trans h2.2⟩
  have hb : e.b = f.b := by simpa using (hx 0 0).1
  have heta : e.eta = f.eta := by simpa using (hx 0 0).2
  have hA : e.A = f.A := Matrix.ext_of_mulVec_single fun i => by
    have := (hx (Pi.single i 1) 0).1
    simpa [hb] using this
  have hC : e.C = f.C := Matrix.ext_of_mulVec_single fun i => by
    have := (hx 0 (Pi.single i 1)).1
    simpa [hb] using this
  have hJ : e.J = f.J := Matrix.ext_of_mulVec_single fun i => by
    have := (hx (Pi.single i 1) 0).2
    simpa [heta] using this
  cases e; cases f
  simp only at hb heta hA hC hJ
  subst hb heta hA hC hJ
  rfl

/-- the filtering operator is associative -/
theorem assoc {a b c : KElem n} (ha : a.Valid) (hb : b.Valid) (hc : c.Valid) :
    (a.combine b).combine c = a.combine (b.combine c) := by
  refine ext_rel fun x l3 => ?_
  obtain ⟨l, x2, l2, x3, h1, h2⟩ := exists_mid (combine_valid ha hb) hc x l3
  obtain ⟨l', x1, l1, x2', h3, h4⟩ := exists_mid ha hb x l2
  have h5 := combine_rel ha hb h3 h4
  have e1 : x2' = x2 := h5.1.trans h1.1.symm
  have e2 : l' = l := h5.2.trans h1.2.symm
  subst e1 e2
  exact ⟨l', x3, combine_rel (combine_valid ha hb) hc h5 h2, combine_rel ha (combine_valid hb hc) h3 (combine_rel hb hc h4 h2)⟩

end KElem

end Verif
