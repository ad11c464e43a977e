import Verif.Lemmas.Dense
import Verif.Lemmas.ShoLarge
import Mathlib.Analysis.SpecialFunctions.Trigonometric.Bounds

/-!
# C47: the dense integrated oscillator kernel is the double average

`Spec.covSHO` is the textbook covariance of the oscillator, `exposureCov κ X Y` the average of `κ |u - v|` over both exposures.
-/

namespace Verif
open Spec

/-- the exposures which the dense kernel integrates exactly; `T` is the undamped period -/
def Resolved (T d1 d2 : ℝ) : Prop :=
  (d1 = 0 ∧ d2 = 0) ∨ (1e-8 * T ≤ d1 ∧ 1e-8 * T ≤ d2) ∨ (d1 = 0 ∧ 1e-4 * T ≤ d2) ∨ (1e-4 * T ≤ d1 ∧ d2 = 0)

/-! ### helpers -/

namespace DenseSHO

theorem eta_pos_of {q : ℝ} (hq : 0 < q) (h : q ≠ 1 / 2) : 0 < Real.sqrt |1 - 1 / (4 * q ^ 2)| := by
  refine Real.sqrt_pos.mpr (abs_pos.mpr ?_)
  intro e
  have h2 : (2 * q) ^ 2 = 1 := by
    have : 4 * q ^ 2 ≠ 0 := by positivity
    field_simp at e
    nlinarith
  have h3 : 2 * q = 1 := by nlinarith
  exact h (by linarith)

theorem new_SwQ {S w Q : ℝ} (hS : 0 ≤ S) (hw : 0 < w) (hQ : 0 < Q) (h : Q ≠ 1 / 2) : ∃ k : DenseSHO,
    new (some S) (some w) (some Q) none none none = .ok (some k) ∧ k.Good ∧ k.w = w ∧ k.Q = Q ∧ k.sig = Real.sqrt (S * w * Q) ∧
      k.eta = Real.sqrt |1 - 1 / (4 * Q ^ 2)| ∧ k.S = S := by
  have he := eta_pos_of hQ h
  refine ⟨⟨S, w, Q, 2 * Real.pi / w, 2 * Q / w, Real.sqrt (S * w * Q), Real.sqrt |1 - 1 / (4 * Q ^ 2)|,
      1 / (2 * Q * Real.sqrt |1 - 1 / (4 * Q ^ 2)|)⟩, ?_, ?_, rfl, rfl, rfl, rfl, rfl⟩
  · unfold new finish
    simp only
    rw [div?_eq hw.ne', div?_eq hw.ne', div?_eq (by positivity)]
    rfl
  · exact ⟨hw, hQ, he, rfl, rfl, Real.sq_sqrt (by positivity)⟩

theorem new_physical {rho tau sig : ℝ} (hr : 0 < rho) (ht : 0 < tau) (h : Real.pi * tau / rho ≠ 1 / 2) : ∃ k : DenseSHO,
    new none none none (some rho) (some tau) (some sig) = .ok (some k) ∧ k.Good ∧ k.w = 2 * Real.pi / rho ∧
      k.Q = Real.pi * tau / rho ∧ k.sig = sig ∧ k.eta = Real.sqrt |1 - 1 / (4 * (Real.pi * tau / rho) ^ 2)| := by
  have hpi := Real.pi_pos
  have hQ : 0 < Real.pi * tau / rho := by positivity
  have he := eta_pos_of hQ h
  have eQ : tau * (2 * Real.pi / rho) / 2 = Real.pi * tau / rho := by field_simp
  refine ⟨⟨sig ^ 2 / (2 * Real.pi / rho * (Real.pi * tau / rho)), 2 * Real.pi / rho, Real.pi * tau / rho, rho, tau, sig,
      Real.sqrt |1 - 1 / (4 * (Real.pi * tau / rho) ^ 2)|,
      1 / (2 * (Real.pi * tau / rho) * Real.sqrt |1 - 1 / (4 * (Real.pi * tau / rho) ^ 2)|)⟩, ?_, ?_, rfl, rfl, rfl, rfl⟩
  · unfold new finish
    simp only
    rw [div?_eq hr.ne']
    simp only [Option.bind_eq_bind, Option.bind_some, eQ]
    rw [div?_eq (by positivity), div?_eq (by positivity)]
    rfl
  · refine ⟨by positivity, hQ, he, rfl, ?_, ?_⟩
    · show tau = 2 * (Real.pi * tau / rho) / (2 * Real.pi / rho)
      field_simp
    · show sig ^ 2 = sig ^ 2 / (2 * Real.pi / rho * (Real.pi * tau / rho)) * (2 * Real.pi / rho) * (Real.pi * tau / rho)
      field_simp

variable {k : DenseSHO}

/-- the latent kernel is the textbook one of an underdamped oscillator -/
theorem kap_eq (h : k.Good) (he : k.eta = Real.sqrt |1 - 1 / (4 * k.Q ^ 2)|) (hQ : 1 / 2 < k.Q) (r : ℝ) :
    k.kap r = covSHO k.w k.Q k.sig r := by
  have h1 := h.eta_pos; have h2 := h.Q_pos
  unfold kap covSHO
  simp only
  rw [if_neg hQ.ne', if_neg (not_lt.mpr hQ.le), h.sig_eq, ← he]
  have e1 : -k.a * (k.eta * k.w * r) = -(k.w * r / (2 * k.Q)) := by rw [h.a_eq]; field_simp
  have e2 : 1 / (2 * k.eta * k.Q) = k.a := by rw [h.a_eq]; congr 1; ring
  rw [e1, e2]
  ring

theorem average_exposure {t d : ℝ} {i : ℤ} (hd : 0 < d) (f : ℝ → ℝ) :
    (Coord.exposure t d i).average f = 1 / d * ∫ u in (t - d / 2)..(t + d / 2), f u := if_pos hd

theorem average_instant {t : ℝ} {i : ℤ} (f : ℝ → ℝ) : (Coord.exposure t 0 i).average f = f t := if_neg (lt_irrefl _)

theorem cov_both {t1 t2 d1 d2 : ℝ} {i1 i2 : ℤ} (h1 : 0 < d1) (h2 : 0 < d2) :
    exposureCov k.kap (.exposure t1 d1 i1) (.exposure t2 d2 i2) = 1 / (d1 * d2) * k.B (t1 - t2) d1 d2 := by
  unfold exposureCov
  rw [average_exposure h1]
  simp only [average_exposure h2]
  rw [intervalIntegral.integral_const_mul, Twice.avg2 kap_continuous, ← B_neg]
  unfold B
  rw [show t2 + d2 / 2 - (t1 - d1 / 2) = -(t1 - t2) + (d1 + d2) / 2 by ring,
    show t2 + d2 / 2 - (t1 + d1 / 2) = -(t1 - t2) - (d1 - d2) / 2 by ring,
    show t2 - d2 / 2 - (t1 - d1 / 2) = -(t1 - t2) + (d1 - d2) / 2 by ring,
    show t2 - d2 / 2 - (t1 + d1 / 2) = -(t1 - t2) - (d1 + d2) / 2 by ring]
  field_simp
  ring

theorem cov_left {t1 t2 d : ℝ} {i1 i2 : ℤ} (h1 : 0 < d) :
    exposureCov k.kap (.exposure t1 d i1) (.exposure t2 0 i2) =
      1 / d * (k.P1 (t1 - t2 + d / 2) - k.P1 (t1 - t2 - d / 2)) := by
  unfold exposureCov
  rw [average_exposure h1]
  simp only [average_instant]
  rw [Twice.avg1 kap_continuous, show t1 + d / 2 - t2 = t1 - t2 + d / 2 by ring,
    show t1 - d / 2 - t2 = t1 - t2 - d / 2 by ring]

theorem cov_right {t1 t2 d : ℝ} {i1 i2 : ℤ} (h1 : 0 < d) :
    exposureCov k.kap (.exposure t1 0 i1) (.exposure t2 d i2) =
      1 / d * (k.P1 (t1 - t2 + d / 2) - k.P1 (t1 - t2 - d / 2)) := by
  unfold exposureCov
  rw [average_instant, average_exposure h1]
  simp only [abs_sub_comm t1]
  rw [Twice.avg1 kap_continuous]
  have o1 : k.P1 (t2 + d / 2 - t1) = - k.P1 (t1 - t2 - d / 2) := by rw [← Twice.one_neg]; congr 1; ring
  have o2 : k.P1 (t2 - d / 2 - t1) = - k.P1 (t1 - t2 + d / 2) := by rw [← Twice.one_neg]; congr 1; ring
  rw [show Twice.one k.kap (t2 + d / 2 - t1) = _ from o1, show Twice.one k.kap (t2 - d / 2 - t1) = _ from o2]
  ring

theorem Good.period_pos (h : k.Good) : 0 < 2 * Real.pi / k.w := by
  have := h.w_pos; have := Real.pi_pos; positivity

theorem ratio {T d c : ℝ} (hT : 0 < T) (hd : 0 ≤ d) : c ≤ |d / T| ↔ c * T ≤ d := by
  rw [abs_of_nonneg (by positivity), le_div_iff₀ hT]

theorem integrated_resolved (h : k.Good) {t1 t2 d1 d2 : ℝ} (i1 i2 : ℤ) (hr : Resolved (2 * Real.pi / k.w) d1 d2) :
    k.integrated t1 d1 t2 d2 = some (exposureCov k.kap (.exposure t1 d1 i1) (.exposure t2 d2 i2)) := by
  have hT := h.period_pos
  have hT8 : 0 < 1e-8 * (2 * Real.pi / k.w) := by positivity
  have hT4 : 0 < 1e-4 * (2 * Real.pi / k.w) := by positivity
  rcases hr with ⟨rfl, rfl⟩ | ⟨r1, r2⟩ | ⟨rfl, r⟩ | ⟨r, rfl⟩
  · rw [integrated_none h (by rw [max_self, zero_div, abs_zero]; norm_num)]
    unfold exposureCov
    rw [average_instant, average_instant]
  · have p1 := lt_of_lt_of_le hT8 r1
    have p2 := lt_of_lt_of_le hT8 r2
    rw [integrated_both h p1 p2 ((ratio hT p1.le).2 r1) ((ratio hT p2.le).2 r2), cov_both p1 p2]
  · have p := lt_of_lt_of_le hT4 r
    rw [integrated_one h p (max_eq_right p.le) (by rw [min_eq_left p.le, zero_div, abs_zero]; norm_num) ((ratio hT p.le).2 r), cov_right p]
  · have p := lt_of_lt_of_le hT4 r
    rw [integrated_one h p (max_eq_left p.le) (by rw [min_eq_right p.le, zero_div, abs_zero]; norm_num) ((ratio hT p.le).2 r), cov_left p]

end DenseSHO

/-! ### The property -/

/-- **C47 (exactness, `S`, `w`, `Q`).** For every underdamped oscillator and all exposures which are zero or resolved, in every
geometry (separate, touching, partly overlapping, nested, equal), the dense kernel is the average of the oscillator covariance over
both exposures. In particular no branch taken divides by zero. -/
theorem C47_average_partial {S w Q : ℝ} (hS : 0 ≤ S) (hw : 0 < w) (hQ : 1 / 2 < Q) : ∃ k : DenseSHO,
    DenseSHO.new (some S) (some w) (some Q) none none none = .ok (some k) ∧
    ∀ (t1 d1 t2 d2 : ℝ) (i1 i2 : ℤ), Resolved (2 * Real.pi / w) d1 d2 →
      k.evaluate (.triple t1 d1 i1) (.triple t2 d2 i2) =
        .ok (some (exposureCov (covSHO w Q (Real.sqrt (S * w * Q))) (.exposure t1 d1 i1) (.exposure t2 d2 i2))) := by
  obtain ⟨k, hk, good, ew, eQ, es, ee, eS⟩ := DenseSHO.new_SwQ hS hw (by linarith) hQ.ne'
  refine ⟨k, hk, fun t1 d1 t2 d2 i1 i2 hr => ?_⟩
  have hfun : k.kap = covSHO w Q (Real.sqrt (S * w * Q)) := by
    funext r
    rw [DenseSHO.kap_eq good (by rw [ee, eQ]) (by rw [eQ]; exact hQ), ew, eQ, es]
  show Except.ok (k.integrated t1 d1 t2 d2) = _
  rw [DenseSHO.integrated_resolved good i1 i2 (by rw [ew]; exact hr), hfun]

/-- **C47 (exactness, `rho`, `tau`, `sig`).** -/
theorem C47_average_physical_partial {rho tau sig : ℝ} (hr : 0 < rho) (ht : 0 < tau) (hQ : 1 / 2 < Real.pi * tau / rho) :
    ∃ k : DenseSHO, DenseSHO.new none none none (some rho) (some tau) (some sig) = .ok (some k) ∧
    ∀ (t1 d1 t2 d2 : ℝ) (i1 i2 : ℤ), Resolved rho d1 d2 →
      k.evaluate (.triple t1 d1 i1) (.triple t2 d2 i2) =
        .ok (some (exposureCov (covSHO (2 * Real.pi / rho) (Real.pi * tau / rho) sig)
          (.exposure t1 d1 i1) (.exposure t2 d2 i2))) := by
  have hpi := Real.pi_pos
  obtain ⟨k, hk, good, ew, eQ, es, ee⟩ := DenseSHO.new_physical (sig := sig) hr ht hQ.ne'
  refine ⟨k, hk, fun t1 d1 t2 d2 i1 i2 hres => ?_⟩
  have hfun : k.kap = covSHO (2 * Real.pi / rho) (Real.pi * tau / rho) sig := by
    funext r
    rw [DenseSHO.kap_eq good (by rw [ee, eQ]) (by rw [eQ]; exact hQ), ew, eQ, es]
  have hT : 2 * Real.pi / k.w = rho := by rw [ew]; field_simp
  show Except.ok (k.integrated t1 d1 t2 d2) = _
  rw [DenseSHO.integrated_resolved good i1 i2 (by rw [hT]; exact hres), hfun]

/-- the instantaneous dense kernel is the oscillator covariance -/
theorem C47_latent {S w Q : ℝ} (hS : 0 ≤ S) (hw : 0 < w) (hQ : 1 / 2 < Q) : ∃ k : DenseSHO,
    DenseSHO.new (some S) (some w) (some Q) none none none = .ok (some k) ∧
    ∀ t1 t2 : ℝ, k.shoEvaluate (.time t1) (.time t2) = .ok (some (covSHO w Q (Real.sqrt (S * w * Q)) |t1 - t2|)) ∧
      k.evaluate (.time t1) (.time t2) = .ok (some (covSHO w Q (Real.sqrt (S * w * Q)) |t1 - t2|)) := by
  obtain ⟨k, hk, good, ew, eQ, es, ee, eS⟩ := DenseSHO.new_SwQ hS hw (by linarith) hQ.ne'
  refine ⟨k, hk, fun t1 t2 => ?_⟩
  have h := DenseSHO.kap_eq good (by rw [ee, eQ]) (by rw [eQ]; exact hQ) |t1 - t2|
  rw [ew, eQ, es] at h
  constructor
  · show Except.ok (k.latent |t1 - t2|) = _
    rw [DenseSHO.latent_eq good, h]
  · show Except.ok (k.integrated t1 0 t2 0) = _
    rw [DenseSHO.integrated_none good (by rw [max_self, zero_div, abs_zero]; norm_num), h]

/-- **C47 (symmetry).** -/
theorem C47_symm (k : DenseSHO) (t1 d1 t2 d2 : ℝ) (i1 i2 : ℤ) :
    k.evaluate (.triple t1 d1 i1) (.triple t2 d2 i2) = k.evaluate (.triple t2 d2 i2) (.triple t1 d1 i1) := by
  show Except.ok (k.integrated t1 d1 t2 d2) = Except.ok (k.integrated t2 d2 t1 d1)
  unfold DenseSHO.integrated
  rw [abs_sub_comm t1 t2, max_comm d1 d2, min_comm d1 d2]

/-- **C47 (the solver and the dense kernel).** The log likelihood which the integrated state-space solver reports for an underdamped
oscillator is the dense Gaussian one with the covariance matrix of the dense kernel. -/
theorem C47_dense_likelihood {S w Q : ℝ} (hS : 0 ≤ S) (hw : 0 < w) (hQ : 1 / 2 < Q) (hg : SHO.Genuine Q) (m : ℕ)
    (X : Arr Coord) (hX : Schedule m X)
    (hn : (integratedSHO w Q (Real.sqrt (S * w * Q)) m).NoiseOnEvents X)
    (hres : ∀ i < X.len, ∀ j < X.len, Resolved (2 * Real.pi / w) (X.get i).delta (X.get j).delta)
    (y R : Arr ℝ) (hy : y.len = X.len) (hR : ∀ i < X.len, 0 < R.get i) : ∃ k : DenseSHO,
    DenseSHO.new (some S) (some w) (some Q) none none none = .ok (some k) ∧
    ∀ K : Matrix (Fin X.len) (Fin X.len) ℝ,
      (∀ i j : Fin X.len, k.evaluate (.triple (X.get i).sortable (X.get i).delta (X.get i).inst)
        (.triple (X.get j).sortable (X.get j).delta (X.get j).inst) = .ok (some (K i j))) →
      (integratedSHO w Q (Real.sqrt (S * w * Q)) m).integratedLogProbability X y R =
        ((gaussLogDensity (noisyGram K fun i => R.get i) (fun i => y.get i) : ℝ) : EReal) := by
  obtain ⟨k, hk, h⟩ := C47_average_partial hS hw hQ
  refine ⟨k, hk, fun K hK => ?_⟩
  have hav : ∀ (Z : Coord) (f : ℝ → ℝ), (Coord.exposure Z.sortable Z.delta Z.inst).average f = Z.average f := by
    intro Z f; cases Z <;> rfl
  have e : K = fun i j : Fin X.len => exposureCov (covSHO w Q (Real.sqrt (S * w * Q))) (X.get i) (X.get j) := by
    funext i j
    have h1 := hK i j
    rw [h _ _ _ _ _ _ (hres i i.2 j j.2)] at h1
    have h2 := Option.some.inj (Except.ok.inj h1)
    rw [← h2]
    unfold exposureCov
    simp only [hav]
  rw [e]
  exact C11_likelihood_on_events _ _ m (.sho hw (by linarith) hg le_rfl) X hX hn y R hy hR

/-! ### Where it is not exact -/

namespace DenseSHO
variable {k : DenseSHO}

theorem kap_zero (k : DenseSHO) : k.kap 0 = k.S * k.w * k.Q := by simp [kap]

theorem kap_lt (h : k.Good) (hS : 0 < k.S) {x : ℝ} (hx : 0 < x) : k.kap x < k.kap 0 := by
  have h1 := h.a_pos; have h2 := h.eta_pos; have h3 := h.w_pos; have h4 := h.Q_pos
  rw [kap_zero]
  unfold kap
  have hy : 0 < k.eta * k.w * x := by positivity
  generalize k.eta * k.w * x = y at *
  have hlt : Real.exp (-k.a * y) * (Real.cos y + k.a * Real.sin y) < 1 := by
    have e1 : Real.cos y + k.a * Real.sin y ≤ k.a * y + 1 := by
      have := Real.cos_le_one y
      have := mul_le_mul_of_nonneg_left (Real.sin_le hy.le) h1.le
      linarith
    have e2 : k.a * y + 1 < Real.exp (k.a * y) := Real.add_one_lt_exp (by positivity)
    calc _ < Real.exp (-k.a * y) * Real.exp (k.a * y) := mul_lt_mul_of_pos_left (lt_of_le_of_lt e1 e2) (Real.exp_pos _)
      _ = 1 := by rw [← Real.exp_add]; simp
  have hp : 0 < k.S * k.w * k.Q := by positivity
  nlinarith

theorem P1_lt (h : k.Good) (hS : 0 < k.S) {x : ℝ} (hx : 0 < x) : k.P1 x < x * k.kap 0 := by
  have e : x * k.kap 0 = ∫ _s in (0 : ℝ)..x, k.kap 0 := by simp
  rw [e]
  refine intervalIntegral.integral_lt_integral_of_continuousOn_of_le_of_exists_lt hx
    (Twice.cont_abs kap_continuous).continuousOn continuousOn_const (fun s hs => ?_) ⟨x, Set.right_mem_Icc.2 hx.le, ?_⟩
  · rw [abs_of_pos hs.1]; exact (kap_lt h hS hs.1).le
  · rw [abs_of_pos hx]; exact kap_lt h hS hx

theorem P2_lt (h : k.Good) (hS : 0 < k.S) {x : ℝ} (hx : 0 < x) : k.P2 x < x ^ 2 / 2 * k.kap 0 := by
  have e : x ^ 2 / 2 * k.kap 0 = ∫ s in (0 : ℝ)..x, s * k.kap 0 := by
    rw [intervalIntegral.integral_mul_const, integral_id]; ring
  rw [e]
  refine intervalIntegral.integral_lt_integral_of_continuousOn_of_le_of_exists_lt hx
    (Twice.one_continuous kap_continuous).continuousOn (by fun_prop) (fun s hs => (P1_lt h hS hs.1).le)
    ⟨x, Set.right_mem_Icc.2 hx.le, P1_lt h hS hx⟩

/-- averaging reduces the variance -/
theorem cov_diag_lt (h : k.Good) (hS : 0 < k.S) {t d : ℝ} {i1 i2 : ℤ} (hd : 0 < d) :
    exposureCov k.kap (.exposure t d i1) (.exposure t d i2) < k.kap 0 := by
  rw [cov_both hd hd]
  have : k.B (t - t) d d = 2 * k.P2 d := by
    unfold B
    have z : k.P2 0 = 0 := Twice.two_zero
    rw [sub_self, show (0 : ℝ) + (d + d) / 2 = d by ring, show (0 : ℝ) + (d - d) / 2 = 0 by ring,
      show (0 : ℝ) - (d - d) / 2 = 0 by ring, show (0 : ℝ) - (d + d) / 2 = -d by ring,
      show k.P2 (-d) = k.P2 d from Twice.two_neg _, z]
    ring
  rw [this]
  have := P2_lt h hS hd
  rw [one_div, inv_mul_lt_iff₀ (by positivity)]
  nlinarith

theorem cov_instant_lt (h : k.Good) (hS : 0 < k.S) {t d : ℝ} {i1 i2 : ℤ} (hd : 0 < d) :
    exposureCov k.kap (.exposure t d i1) (.exposure t 0 i2) < k.kap 0 := by
  rw [cov_left hd, sub_self, zero_add, zero_sub, show k.P1 (-(d / 2)) = - k.P1 (d / 2) from Twice.one_neg _]
  have := P1_lt h hS (half_pos hd)
  rw [one_div, inv_mul_lt_iff₀ hd]
  linarith

/-! #### the error of the thresholds -/

/-- Lipschitz constant of the kernel -/
noncomputable def lip (k : DenseSHO) : ℝ := k.S * k.w * k.Q * (k.eta * k.w * (1 + k.a ^ 2))

theorem kap_hasDerivAt (r : ℝ) : HasDerivAt k.kap (k.S * k.w * k.Q * (k.eta * k.w *
    (-(1 + k.a ^ 2) * (Real.exp (-k.a * (k.eta * k.w * r)) * Real.sin (k.eta * k.w * r))))) r := by
  have hl := lin_hasDerivAt (k.eta * k.w) r
  have he : HasDerivAt (fun y => Real.exp (-k.a * (k.eta * k.w * y)))
      (Real.exp (-k.a * (k.eta * k.w * r)) * (-k.a * (k.eta * k.w))) r := (hl.const_mul (-k.a)).exp
  have hc : HasDerivAt (fun y => Real.cos (k.eta * k.w * y)) (-Real.sin (k.eta * k.w * r) * (k.eta * k.w)) r :=
    (Real.hasDerivAt_cos _).comp r hl
  have hs : HasDerivAt (fun y => k.a * Real.sin (k.eta * k.w * y)) (k.a * (Real.cos (k.eta * k.w * r) * (k.eta * k.w))) r :=
    ((Real.hasDerivAt_sin _).comp r hl).const_mul k.a
  have h := (he.mul (hc.add hs)).const_mul (k.S * k.w * k.Q)
  refine (h.congr_deriv ?_)
  simp only [Pi.add_apply]
  ring

theorem kap_lipschitz (h : k.Good) (hS : 0 ≤ k.S) {x y : ℝ} (hx : 0 ≤ x) (hy : 0 ≤ y) :
    |k.kap x - k.kap y| ≤ k.lip * |x - y| := by
  have h1 := h.a_pos; have h2 := h.eta_pos; have h3 := h.w_pos; have h4 := h.Q_pos
  have hb : ∀ r ∈ Set.Ici (0 : ℝ), ‖k.S * k.w * k.Q * (k.eta * k.w *
      (-(1 + k.a ^ 2) * (Real.exp (-k.a * (k.eta * k.w * r)) * Real.sin (k.eta * k.w * r))))‖ ≤ k.lip := by
    intro r hr
    have hr' : 0 ≤ r := hr
    have e1 : Real.exp (-k.a * (k.eta * k.w * r)) ≤ 1 := Real.exp_le_one_iff.2 (by
      have : 0 ≤ k.a * (k.eta * k.w * r) := by positivity
      linarith)
    have e2 := Real.abs_sin_le_one (k.eta * k.w * r)
    have e3 : |Real.exp (-k.a * (k.eta * k.w * r)) * Real.sin (k.eta * k.w * r)| ≤ 1 := by
      rw [abs_mul, abs_of_pos (Real.exp_pos _)]
      exact mul_le_one₀ e1 (abs_nonneg _) e2
    rw [Real.norm_eq_abs, abs_mul (k.S * k.w * k.Q), abs_mul (k.eta * k.w), abs_mul (-(1 + k.a ^ 2)), abs_neg,
      abs_of_nonneg (by positivity : 0 ≤ k.S * k.w * k.Q),
      abs_of_pos (by positivity : 0 < k.eta * k.w), abs_of_pos (one_add_sq_pos k)]
    unfold lip
    refine mul_le_mul_of_nonneg_left (mul_le_mul_of_nonneg_left ?_ (by positivity)) (by positivity)
    exact mul_le_of_le_one_right (one_add_sq_pos k).le e3
  have := Convex.norm_image_sub_le_of_norm_hasDerivWithin_le (s := Set.Ici (0 : ℝ)) (f := k.kap)
    (fun r _ => (kap_hasDerivAt r).hasDerivWithinAt) hb (convex_Ici 0) (x := y) (y := x) hy hx
  rwa [Real.norm_eq_abs, Real.norm_eq_abs] at this

end DenseSHO

/-- averages of close functions are close -/
theorem Coord.average_close (X : Coord) {f g : ℝ → ℝ} (hf : Continuous f) (hg : Continuous g) {e : ℝ}
    (h : ∀ u, |u - X.sortable| ≤ X.delta / 2 ∨ u = X.sortable → |f u - g u| ≤ e) : |X.average f - X.average g| ≤ e := by
  unfold Coord.average
  split_ifs with hd
  · rw [← mul_sub, ← intervalIntegral.integral_sub (hf.intervalIntegrable _ _) (hg.intervalIntegrable _ _), abs_mul,
      abs_of_pos (by positivity)]
    have hb := intervalIntegral.norm_integral_le_of_norm_le_const (f := fun u => f u - g u) (C := e)
      (a := X.sortable - X.delta / 2) (b := X.sortable + X.delta / 2) (fun u hu => by
        rw [Set.uIoc_of_le (by linarith)] at hu
        exact h u (Or.inl (abs_le.2 ⟨by linarith [hu.1], by linarith [hu.2]⟩)))
    rw [Real.norm_eq_abs] at hb
    have e1 : |X.sortable + X.delta / 2 - (X.sortable - X.delta / 2)| = X.delta := by
      rw [show X.sortable + X.delta / 2 - (X.sortable - X.delta / 2) = X.delta by ring, abs_of_pos hd]
    rw [e1] at hb
    rw [one_div, inv_mul_le_iff₀ hd]
    linarith
  · exact h _ (Or.inr rfl)

theorem Coord.average_const (X : Coord) (c : ℝ) : X.average (fun _ => c) = c := by
  unfold Coord.average
  split_ifs with hd
  · rw [intervalIntegral.integral_const, smul_eq_mul]
    have := hd.ne'
    field_simp
    ring
  · rfl

namespace DenseSHO
variable {k : DenseSHO}

/-- replacing the second exposure by its midpoint -/
theorem cov_close_right (h : k.Good) (hS : 0 ≤ k.S) {t1 t2 d1 d2 : ℝ} (i1 i2 : ℤ) (hd2 : 0 ≤ d2) :
    |exposureCov k.kap (.exposure t1 d1 i1) (.exposure t2 0 i2) - exposureCov k.kap (.exposure t1 d1 i1) (.exposure t2 d2 i2)|
      ≤ k.lip * (d2 / 2) := by
  have hl : 0 ≤ k.lip := by
    have h1 := h.a_pos; have h2 := h.eta_pos; have h3 := h.w_pos; have h4 := h.Q_pos
    unfold lip; positivity
  have hc := Twice.cont_abs (κ := k.kap) kap_continuous
  unfold exposureCov
  refine Coord.average_close _ (average_continuous _ hc) (average_continuous _ hc) fun u _ => ?_
  rw [average_instant, ← Coord.average_const (.exposure t2 d2 i2) (k.kap |u - t2|)]
  have hcu : Continuous fun v => k.kap |u - v| := hc.comp (continuous_const.sub continuous_id)
  refine Coord.average_close _ continuous_const hcu fun v hv => ?_
  refine (kap_lipschitz h hS (abs_nonneg _) (abs_nonneg _)).trans (mul_le_mul_of_nonneg_left ?_ hl)
  have hv' : |v - t2| ≤ d2 / 2 := by
    rcases hv with hv | hv
    · exact hv
    · rw [show v = t2 from hv, sub_self, abs_zero]; linarith
  refine (abs_abs_sub_abs_le_abs_sub _ _).trans ?_
  rwa [show u - t2 - (u - v) = v - t2 by ring]

theorem cov_comm {t1 t2 d1 d2 : ℝ} (i1 i2 : ℤ) (h1 : 0 ≤ d1) (h2 : 0 ≤ d2) :
    exposureCov k.kap (.exposure t1 d1 i1) (.exposure t2 d2 i2) = exposureCov k.kap (.exposure t2 d2 i2) (.exposure t1 d1 i1) := by
  rcases h1.eq_or_lt with rfl | p1 <;> rcases h2.eq_or_lt with rfl | p2
  · unfold exposureCov; simp only [average_instant, abs_sub_comm]
  · unfold exposureCov; simp only [average_instant, abs_sub_comm]
  · unfold exposureCov; simp only [average_instant, abs_sub_comm]
  · rw [cov_both p1 p2, cov_both p2 p1, mul_comm d1 d2, B_comm, ← B_neg, neg_sub]

/-- replacing both exposures by their midpoints -/
theorem cov_close_both (h : k.Good) (hS : 0 ≤ k.S) {t1 t2 d1 d2 : ℝ} (i1 i2 : ℤ) (hd1 : 0 ≤ d1) (hd2 : 0 ≤ d2) :
    |k.kap |t1 - t2| - exposureCov k.kap (.exposure t1 d1 i1) (.exposure t2 d2 i2)| ≤ k.lip * ((d1 + d2) / 2) := by
  have e1 := cov_close_right h hS (t1 := t1) (t2 := t2) (d1 := d1) i1 i2 hd2
  have e2 := cov_close_right h hS (t1 := t2) (t2 := t1) (d1 := 0) i2 i1 hd1
  have e3 : exposureCov k.kap (.exposure t2 0 i2) (.exposure t1 0 i1) = k.kap |t1 - t2| := by
    unfold exposureCov; simp only [average_instant, abs_sub_comm]
  rw [e3, cov_comm i2 i1 le_rfl hd1] at e2
  have := abs_sub_le (k.kap |t1 - t2|) (exposureCov k.kap (.exposure t1 d1 i1) (.exposure t2 0 i2))
    (exposureCov k.kap (.exposure t1 d1 i1) (.exposure t2 d2 i2))
  linarith

theorem integrated_error (h : k.Good) (hS : 0 ≤ k.S) {t1 t2 d1 d2 : ℝ} (i1 i2 : ℤ) (hd1 : 0 ≤ d1) (hd2 : 0 ≤ d2) :
    ∃ v, k.integrated t1 d1 t2 d2 = some v ∧
      |v - exposureCov k.kap (.exposure t1 d1 i1) (.exposure t2 d2 i2)| ≤ k.lip * (1e-4 * (2 * Real.pi / k.w)) := by
  have hl : 0 ≤ k.lip := by
    have h1 := h.a_pos; have h2 := h.eta_pos; have h3 := h.w_pos; have h4 := h.Q_pos
    unfold lip; positivity
  have hT := h.period_pos
  -- it suffices to treat `d2 ≤ d1`
  have main : ∀ (t1 t2 d1 d2 : ℝ) (i1 i2 : ℤ), 0 ≤ d2 → d2 ≤ d1 → ∃ v, k.integrated t1 d1 t2 d2 = some v ∧
      |v - exposureCov k.kap (.exposure t1 d1 i1) (.exposure t2 d2 i2)| ≤ k.lip * (1e-4 * (2 * Real.pi / k.w)) := by
    intro t1 t2 d1 d2 i1 i2 hd2 h21
    have hd1 := hd2.trans h21
    have hM : max d1 d2 = d1 := max_eq_left h21
    have hm : min d1 d2 = d2 := min_eq_right h21
    have lt_iff : ∀ (c d : ℝ), 0 ≤ d → (|d / (2 * Real.pi / k.w)| < c ↔ d < c * (2 * Real.pi / k.w)) := by
      intro c d hd
      rw [← not_le, ratio hT hd, not_le]
    by_cases c0 : d2 < 1e-8 * (2 * Real.pi / k.w)
    · have b0 : d2 < 1e-4 * (2 * Real.pi / k.w) := c0.trans_le (by nlinarith)
      by_cases c4 : d1 < 1e-4 * (2 * Real.pi / k.w)
      · have hv : k.integrated t1 d1 t2 d2 = some (k.kap |t1 - t2|) := by
          by_cases c8 : d1 < 1e-8 * (2 * Real.pi / k.w)
          · exact integrated_none h (by rw [hM]; exact (lt_iff _ _ hd1).2 c8)
          · exact integrated_gap h (by rw [hM]; exact (lt_iff _ _ hd1).2 c4)
              (by rw [hM]; exact fun q => c8 ((lt_iff _ _ hd1).1 q)) (by rw [hm]; exact (lt_iff _ _ hd2).2 c0)
        refine ⟨_, hv, (cov_close_both h hS i1 i2 hd1 hd2).trans (mul_le_mul_of_nonneg_left (by linarith) hl)⟩
      · have c4' := not_lt.1 c4
        have p1 : 0 < d1 := lt_of_lt_of_le (by positivity) c4'
        have e := integrated_one h (t1 := t1) (t2 := t2) p1 hM (by rw [hm]; exact (lt_iff _ _ hd2).2 c0) ((ratio hT hd1).2 c4')
        rw [← cov_left (i1 := i1) (i2 := i2) p1] at e
        exact ⟨_, e, (cov_close_right h hS i1 i2 hd2).trans (mul_le_mul_of_nonneg_left (by linarith) hl)⟩
    · have c0' := not_lt.1 c0
      refine ⟨_, integrated_resolved h i1 i2 (Or.inr (Or.inl ⟨c0'.trans h21, c0'⟩)), ?_⟩
      rw [sub_self, abs_zero]
      positivity
  rcases le_total d2 d1 with h21 | h12
  · exact main t1 t2 d1 d2 i1 i2 hd2 h21
  · obtain ⟨v, hv, hb⟩ := main t2 t1 d2 d1 i2 i1 hd1 h12
    have hs := Except.ok.inj (C47_symm k t1 d1 t2 d2 i1 i2)
    exact ⟨v, hs.trans hv, by rw [cov_comm i1 i2 hd1 hd2]; exact hb⟩

theorem lip_eq (h : k.Good) (he : k.eta = Real.sqrt |1 - 1 / (4 * k.Q ^ 2)|) (hQ : 1 / 2 < k.Q) :
    k.lip * (1e-4 * (2 * Real.pi / k.w)) = 2e-4 * Real.pi * k.sig ^ 2 / k.eta := by
  have h1 := h.eta_pos; have h3 := h.w_pos; have h4 := h.Q_pos
  have hsq : k.eta ^ 2 = 1 - 1 / (4 * k.Q ^ 2) := by
    have : 0 ≤ 1 - 1 / (4 * k.Q ^ 2) := by
      rw [sub_nonneg, div_le_one (by positivity)]; nlinarith
    rw [he, Real.sq_sqrt (abs_nonneg _), abs_of_nonneg this]
  have ha : k.eta ^ 2 * (1 + k.a ^ 2) = 1 := by
    rw [mul_add, mul_one, hsq, h.a_eq, ← hsq]
    field_simp
    rw [hsq]
    field_simp
    ring
  have ha' : k.eta * (1 + k.a ^ 2) = 1 / k.eta := by
    field_simp; linarith
  unfold lip
  rw [h.sig_eq, show k.S * k.w * k.Q * (k.eta * k.w * (1 + k.a ^ 2)) = k.S * k.w * k.Q * k.w * (k.eta * (1 + k.a ^ 2)) by ring, ha']
  field_simp
  ring

end DenseSHO

/-- **C47 (every exposure).** For every underdamped oscillator and *all* exposures, resolved or not, the dense kernel returns a number,
and it differs from the exact double average by at most `2π · 10⁻⁴ σ² / η`. -/
theorem C47_error_bound {S w Q : ℝ} (hS : 0 ≤ S) (hw : 0 < w) (hQ : 1 / 2 < Q) : ∃ k : DenseSHO,
    DenseSHO.new (some S) (some w) (some Q) none none none = .ok (some k) ∧
    ∀ (t1 d1 t2 d2 : ℝ) (i1 i2 : ℤ), 0 ≤ d1 → 0 ≤ d2 →
      ∃ v, k.evaluate (.triple t1 d1 i1) (.triple t2 d2 i2) = .ok (some v) ∧
        |v - exposureCov (covSHO w Q (Real.sqrt (S * w * Q))) (.exposure t1 d1 i1) (.exposure t2 d2 i2)| ≤
          2e-4 * Real.pi * (S * w * Q) / Real.sqrt (1 - 1 / (4 * Q ^ 2)) := by
  obtain ⟨k, hk, good, ew, eQ, es, ee, eS⟩ := DenseSHO.new_SwQ hS hw (by linarith) hQ.ne'
  refine ⟨k, hk, fun t1 d1 t2 d2 i1 i2 hd1 hd2 => ?_⟩
  have hfun : k.kap = covSHO w Q (Real.sqrt (S * w * Q)) := by
    funext r
    rw [DenseSHO.kap_eq good (by rw [ee, eQ]) (by rw [eQ]; exact hQ), ew, eQ, es]
  have hkS : 0 ≤ k.S := by rw [eS]; exact hS
  obtain ⟨v, hv, hb⟩ := DenseSHO.integrated_error good hkS (t1 := t1) (t2 := t2) i1 i2 hd1 hd2
  refine ⟨v, congrArg Except.ok hv, ?_⟩
  rw [DenseSHO.lip_eq good (by rw [ee, eQ]) (by rw [eQ]; exact hQ), hfun, es, ee, Real.sq_sqrt (by positivity)] at hb
  have hn : 0 ≤ 1 - 1 / (4 * Q ^ 2) := by
    rw [sub_nonneg, div_le_one (by positivity)]; nlinarith
  rwa [abs_of_nonneg hn] at hb

/-- **C47 (the thresholds are approximations).** A finite exposure shorter than `10⁻⁴` of the undamped period is not averaged against
an instantaneous point in it: the value is the full variance, always strictly larger than the average. -/
theorem C47_threshold_refuted {S w Q : ℝ} (hS : 0 < S) (hw : 0 < w) (hQ : 1 / 2 < Q) : ∃ k : DenseSHO,
    DenseSHO.new (some S) (some w) (some Q) none none none = .ok (some k) ∧
    ∀ (t d : ℝ) (i1 i2 : ℤ), 0 < d → d < 1e-4 * (2 * Real.pi / w) →
      ∃ v, k.evaluate (.triple t d i1) (.triple t 0 i2) = .ok (some v) ∧
        exposureCov (covSHO w Q (Real.sqrt (S * w * Q))) (.exposure t d i1) (.exposure t 0 i2) < v := by
  obtain ⟨k, hk, good, ew, eQ, es, ee, eS⟩ := DenseSHO.new_SwQ hS.le hw (by linarith) hQ.ne'
  refine ⟨k, hk, fun t d i1 i2 hd hlt => ⟨k.kap 0, ?_, ?_⟩⟩
  · have hT := good.period_pos
    have hM : max d 0 = d := max_eq_left hd.le
    have hm : min d 0 = 0 := min_eq_right hd.le
    have h4 : |max d 0 / (2 * Real.pi / k.w)| < 1e-4 := by
      rw [← not_le, hM, DenseSHO.ratio hT hd.le, not_le, ew]; exact hlt
    show Except.ok (k.integrated t d t 0) = _
    by_cases h8 : |max d 0 / (2 * Real.pi / k.w)| < 1e-8
    · rw [DenseSHO.integrated_none good h8, sub_self, abs_zero]
    · rw [DenseSHO.integrated_gap good h4 h8 (by rw [hm, zero_div, abs_zero]; norm_num), sub_self, abs_zero]
  · have hfun : k.kap = covSHO w Q (Real.sqrt (S * w * Q)) := by
      funext r
      rw [DenseSHO.kap_eq good (by rw [ee, eQ]) (by rw [eQ]; exact hQ), ew, eQ, es]
    rw [← hfun]
    exact DenseSHO.cov_instant_lt good (by rw [eS]; exact hS) hd

/-- **C47 (pairs).** The documentation of `evaluate` offers coordinates `(t, texp)`. The second entry is ignored: the value is the
instantaneous one, and on the diagonal it is always strictly larger than the average over the exposure. -/
theorem C47_pair_refuted {S w Q : ℝ} (hS : 0 < S) (hw : 0 < w) (hQ : 1 / 2 < Q) : ∃ k : DenseSHO,
    DenseSHO.new (some S) (some w) (some Q) none none none = .ok (some k) ∧
    (∀ t1 e1 t2 e2 : ℝ, k.evaluate (.pair t1 e1) (.pair t2 e2) = k.evaluate (.time t1) (.time t2)) ∧
    ∀ (t d : ℝ) (i1 i2 : ℤ), 0 < d → ∃ v, k.evaluate (.pair t d) (.pair t d) = .ok (some v) ∧
      exposureCov (covSHO w Q (Real.sqrt (S * w * Q))) (.exposure t d i1) (.exposure t d i2) < v := by
  obtain ⟨k, hk, good, ew, eQ, es, ee, eS⟩ := DenseSHO.new_SwQ hS.le hw (by linarith) hQ.ne'
  refine ⟨k, hk, fun _ _ _ _ => rfl, fun t d i1 i2 hd => ⟨k.kap 0, ?_, ?_⟩⟩
  · show Except.ok (k.integrated t 0 t 0) = _
    rw [DenseSHO.integrated_none good (by rw [max_self, zero_div, abs_zero]; norm_num), sub_self, abs_zero]
  · have hfun : k.kap = covSHO w Q (Real.sqrt (S * w * Q)) := by
      funext r
      rw [DenseSHO.kap_eq good (by rw [ee, eQ]) (by rw [eQ]; exact hQ), ew, eQ, es]
    rw [← hfun]
    exact DenseSHO.cov_diag_lt good (by rw [eS]; exact hS) hd

/-- **C47 (overdamped).** For every overdamped oscillator the dense kernels are not the oscillator covariance (they use the
trigonometric functions of the underdamped case): the value at distinct times is always strictly smaller. -/
theorem C47_overdamped_refuted {S w Q : ℝ} (hS : 0 < S) (hw : 0 < w) (hQ0 : 0 < Q) (hQ : Q < 1 / 2) : ∃ k : DenseSHO,
    DenseSHO.new (some S) (some w) (some Q) none none none = .ok (some k) ∧
    ∀ t1 t2 : ℝ, t1 ≠ t2 → ∃ v, k.evaluate (.time t1) (.time t2) = .ok (some v) ∧
      k.shoEvaluate (.time t1) (.time t2) = .ok (some v) ∧ v < covSHO w Q (Real.sqrt (S * w * Q)) |t1 - t2| := by
  obtain ⟨k, hk, good, ew, eQ, es, ee, eS⟩ := DenseSHO.new_SwQ hS.le hw hQ0 hQ.ne
  refine ⟨k, hk, fun t1 t2 hne => ⟨k.kap |t1 - t2|, ?_, ?_, ?_⟩⟩
  · show Except.ok (k.integrated t1 0 t2 0) = _
    rw [DenseSHO.integrated_none good (by rw [max_self, zero_div, abs_zero]; norm_num)]
  · show Except.ok (k.latent |t1 - t2|) = _
    rw [DenseSHO.latent_eq good]
  · have hr : 0 < |t1 - t2| := abs_pos.2 (sub_ne_zero.2 hne)
    generalize |t1 - t2| = r at *
    have h1 := good.eta_pos
    unfold DenseSHO.kap covSHO
    simp only
    rw [if_neg hQ.ne, if_pos hQ, ← ee, Real.sq_sqrt (by positivity), eS, ew, eQ]
    have e1 : -k.a * (k.eta * w * r) = -(w * r / (2 * Q)) := by rw [good.a_eq, eQ]; field_simp
    have e2 : 1 / (2 * k.eta * Q) = k.a := by rw [good.a_eq, eQ]; congr 1; ring
    rw [e1, e2, mul_assoc (S * w * Q)]
    have ha := good.a_pos
    have hy : 0 < k.eta * w * r := by positivity
    generalize k.eta * w * r = y at *
    refine mul_lt_mul_of_pos_left (mul_lt_mul_of_pos_left ?_ (Real.exp_pos _)) (by positivity)
    have c1 : Real.cos y ≤ 1 := Real.cos_le_one y
    have c2 : 1 ≤ Real.cosh y := Real.one_le_cosh y
    have s1 : Real.sin y < y := Real.sin_lt hy
    have s2 : y ≤ Real.sinh y := Real.self_le_sinh_iff.2 hy.le
    have := mul_lt_mul_of_pos_left (s1.trans_le s2) ha
    linarith

/-- **C47 (critical).** At `Q = 1/2` the constructor divides by zero. -/
theorem C47_critical (S w : ℝ) (hw : w ≠ 0) : DenseSHO.new (some S) (some w) (some (1 / 2)) none none none = .ok none := by
  unfold DenseSHO.new DenseSHO.finish
  simp only
  rw [DenseSHO.div?_eq hw, DenseSHO.div?_eq hw]
  have : (2 * (1 / 2) * Real.sqrt |1 - 1 / (4 * (1 / 2 : ℝ) ^ 2)|) = 0 := by norm_num
  rw [this]
  simp [div?]

/-! ### Concrete cases -/

/-- nested, partly overlapping, separate and equal exposures, and an instantaneous point, for period `1` -/
example : Resolved 1 3 2 ∧ Resolved 1 0 2 ∧ Resolved 1 0 0 := by
  refine ⟨Or.inr (Or.inl ⟨?_, ?_⟩), Or.inr (Or.inr (Or.inl ⟨rfl, ?_⟩)), Or.inl ⟨rfl, rfl⟩⟩ <;> norm_num

/-- period `1`, damping time `1`: the oscillator is underdamped -/
example : ∃ k : DenseSHO, DenseSHO.new none none none (some 1) (some 1) (some 2) = .ok (some k) ∧
    k.evaluate (.triple 0 3 0) (.triple 1 2 1) =
      .ok (some (exposureCov (covSHO (2 * Real.pi / 1) (Real.pi * 1 / 1) 2) (.exposure 0 3 0) (.exposure 1 2 1))) := by
  obtain ⟨k, h, h'⟩ := C47_average_physical_partial (rho := 1) (tau := 1) (sig := 2) one_pos one_pos
    (by have := Real.two_le_pi; linarith)
  exact ⟨k, h, h' _ _ _ _ _ _ (Or.inr (Or.inl ⟨by norm_num, by norm_num⟩))⟩

/-- the hypotheses of `C47_dense_likelihood` are met, by three exposures of two overlapping instruments and an oscillator of quality one -/
example : ∃ S : ℝ, 0 ≤ S ∧ SHO.Genuine 1 ∧ (integratedSHO 1 1 (Real.sqrt (S * 1 * 1)) 1).NoiseOnEvents threeExposures ∧
    ∀ i < threeExposures.len, ∀ j < threeExposures.len,
      Resolved (2 * Real.pi / 1) (threeExposures.get i).delta (threeExposures.get j).delta := by
  have hc : ¬ SHO.isCritical 1 := by
    unfold SHO.isCritical
    rw [abs_of_pos (by norm_num), abs_of_pos (by norm_num)]
    norm_num
  obtain ⟨σ, h1, h2⟩ := ((integratedSHO_noiseOnEvents 1 "IntegratedSHO" one_pos (by norm_num : (1 : ℝ) / 2 < 1) hc threeExposures).and
    (Filter.eventually_ge_atTop 0)).exists
  refine ⟨σ ^ 2, sq_nonneg _, Or.inr hc, ?_, ?_⟩
  · rw [mul_one, mul_one, Real.sqrt_sq h2]
    exact h1
  · have hd : ∀ i < threeExposures.len, (threeExposures.get i).delta = 2 := by
      intro i hi
      have hl : threeExposures.len = 3 := rfl
      rw [hl] at hi
      interval_cases i <;> rfl
    intro i hi j hj
    rw [hd i hi, hd j hj]
    have := Real.pi_le_four
    exact Or.inr (Or.inl ⟨by norm_num; linarith, by norm_num; linarith⟩)

end Verif
