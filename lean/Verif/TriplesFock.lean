import Verif.AmpClosed
import Verif.Triples
import Verif.Oscillator

/-!
# Fock amplitudes of the triples (C56)
-/

namespace Verif.Triples
open Verif.Fock Verif.Batch Verif.PolyExp

theorem inB_pos {s k : List ℕ} (h : InB s k) : 0 ∉ s := by
  induction h with
  | nil => simp
  | cons h1 _ ih =>
    intro hc
    rcases List.mem_cons.1 hc with h | h
    · omega
    · exact ih h

theorem mk_fock {B : List ℕ} {N : ℕ} {A : List ℕ → ℕ → ℕ → ℂ} {b : List ℕ → ℕ → ℂ} {c : List ℕ → ℂ} (hs : ∀ β, Symm N (A β)) {shape k : List ℕ} (β : List ℕ)
    (hl : shape.length = N) (hk : InB shape k) : (mk B N A b c).fockArray shape β k = some (amp N (A β) (b β) (c β) (toF k)) := by
  rw [C58_entries _ mk_wf hs shape β k (inB_pos hk) (by rw [mk_numCV, hl]) hk]
  unfold PolyExp.fockAmp PolyExp.supShape
  refine congrArg some ?_
  show nsum [] (fun τ => nsum [] fun d => c (β ++ τ) * amp N (A (β ++ τ)) (b (β ++ τ)) 1 (toF (k ++ d))) = _
  rw [nsum_nil, nsum_nil, List.append_nil, List.append_nil, amp_smul _ _ _ (c β)]

theorem fock1 {B : List ℕ} {A : List ℕ → ℕ → ℕ → ℂ} {b : List ℕ → ℕ → ℂ} {c : List ℕ → ℂ} {M m : ℕ} (β : List ℕ) (hm : m < M) :
    (mk B 1 A b c).fockArray [M] β [m] = some (amp 1 (A β) (b β) (c β) (toF [m])) :=
  mk_fock (fun β i hi j hj => by interval_cases i; interval_cases j; rfl) β rfl (.cons hm .nil)

theorem fock2 {B : List ℕ} {A : List ℕ → ℕ → ℕ → ℂ} {b : List ℕ → ℕ → ℂ} {c : List ℕ → ℂ} {M N m n : ℕ} (hA : ∀ β, A β 0 1 = A β 1 0) (β : List ℕ)
    (hm : m < M) (hn : n < N) : (mk B 2 A b c).fockArray [M, N] β [m, n] = some (amp 2 (A β) (b β) (c β) (toF [m, n])) :=
  mk_fock (fun β i hi j hj => by
    interval_cases i <;> interval_cases j
    · rfl
    · exact hA β
    · exact (hA β).symm
    · rfl) β rfl (.cons hm (.cons hn .nil))

variable (B : List ℕ) {M N m n : ℕ} (β : List ℕ)

/-- **C56**: coherent states: `e^{-|α|²/2} αⁿ / √n!`. -/
theorem C56_coherent (α : List ℕ → ℂ) (hn : n < N) :
    (coherent B α).fockArray [N] β [n] = some (Complex.exp (-(‖α β‖ : ℂ) ^ 2 / 2) * α β ^ n / (Real.sqrt (n.factorial : ℝ) : ℂ)) := by
  unfold coherent
  rw [fock1 β hn, amp1_linear rfl]
  refine congrArg some (congrArg (· / _) (congrArg (· * _) (congrArg Complex.exp ?_)))
  push_cast
  ring

/-- **C56**: squeezed vacuum: `(-e^{iφ} tanh r)^k √(2k)! / (2^k k!) / √cosh r` photons in pairs only. -/
theorem C56_squeezed (r φ : List ℕ → ℝ) (k : ℕ) :
    (2 * k < N → (squeezedVacuum B r φ).fockArray [N] β [2 * k] = some ((-Real.tanh (r β) * Complex.exp (Complex.I * φ β)) ^ k *
      (Real.sqrt ((2 * k).factorial : ℝ) : ℂ) / (2 ^ k * (k.factorial : ℂ)) / (Real.sqrt (Real.cosh (r β)) : ℂ))) ∧
    (2 * k + 1 < N → (squeezedVacuum B r φ).fockArray [N] β [2 * k + 1] = some 0) := by
  unfold squeezedVacuum
  constructor
  · intro hk
    rw [fock1 β hk, (amp1_even rfl k).1]
    refine congrArg some ?_
    show 1 / ((Real.sqrt (Real.cosh (r β)) : ℝ) : ℂ) * sf (2 * k) * ((-(Real.sinh (r β) : ℂ) / Real.cosh (r β) * ph (φ β)) / 2) ^ k / _ = _
    unfold sf ph
    rw [Real.tanh_eq_sinh_div_cosh, div_pow]
    push_cast
    rw [neg_div]
    ring
  · intro hk
    rw [fock1 β hk, (amp1_even rfl k).2]

/-- **C56**: two-mode squeezed vacuum: `δ_{mn} (e^{iφ} tanh r)ⁿ / cosh r`. -/
theorem C56_tmsv (r φ : List ℕ → ℝ) (hm : m < M) (hn : n < N) :
    (tmsv B r φ).fockArray [M, N] β [m, n] =
      some (if m = n then (Complex.exp (Complex.I * φ β) * Real.tanh (r β)) ^ m / Real.cosh (r β) else 0) := by
  unfold tmsv
  rw [fock2 (fun _ => rfl) β hm hn, amp2_diag rfl rfl rfl rfl rfl]
  refine congrArg some (if_congr Iff.rfl ?_ rfl)
  show 1 / (Real.cosh (r β) : ℂ) * (ph (φ β) * Real.sinh (r β) / Real.cosh (r β)) ^ m = _
  unfold ph
  rw [Real.tanh_eq_sinh_div_cosh]
  push_cast
  ring

/-- **C56**: thermal states: `δ_{mn} (n̄/(n̄+1))ⁿ / (n̄+1)`. -/
theorem C56_thermal (nbar : List ℕ → ℝ) (hm : m < M) (hn : n < N) :
    (thermal B nbar).fockArray [M, N] β [m, n] = some (if m = n then (((nbar β / (nbar β + 1)) ^ m / (nbar β + 1) : ℝ) : ℂ) else 0) := by
  unfold thermal
  rw [fock2 (fun _ => rfl) β hm hn, amp2_diag rfl rfl rfl rfl rfl]
  refine congrArg some (if_congr Iff.rfl ?_ rfl)
  show 1 / (nbar β + 1 : ℂ) * ((nbar β : ℂ) / (nbar β + 1)) ^ m = _
  push_cast
  ring

/-- **C56**: rotations are diagonal with entries `e^{inθ}`. -/
theorem C56_rotation (θ : List ℕ → ℝ) (hm : m < M) (hn : n < N) :
    (rotation B θ).fockArray [M, N] β [m, n] = some (if m = n then Complex.exp (Complex.I * (m * θ β)) else 0) := by
  unfold rotation
  rw [fock2 (fun _ => rfl) β hm hn, amp2_diag rfl rfl rfl rfl rfl]
  refine congrArg some (if_congr Iff.rfl ?_ rfl)
  show 1 * ph (θ β) ^ m = _
  unfold ph
  rw [one_mul, ← Complex.exp_nat_mul]
  refine congrArg Complex.exp ?_
  ring

/-- **C56**: Fock damping is diagonal with entries `e^{-nβ}`. -/
theorem C56_damping (d : List ℕ → ℝ) (hm : m < M) (hn : n < N) :
    (fockDamping B d).fockArray [M, N] β [m, n] = some (if m = n then ((Real.exp (-(m * d β)) : ℝ) : ℂ) else 0) := by
  unfold fockDamping
  rw [fock2 (fun _ => rfl) β hm hn, amp2_diag rfl rfl rfl rfl rfl]
  refine congrArg some (if_congr Iff.rfl ?_ rfl)
  show 1 * Complex.exp (-(d β : ℂ)) ^ m = _
  rw [one_mul, ← Complex.exp_nat_mul, Complex.ofReal_exp]
  refine congrArg Complex.exp ?_
  push_cast
  ring

/-- **C56**: displacements: `e^{-|α|²/2}/√(m! n!) ∑_j C(m,j) C(n,j) j! α^{m-j} (-ᾱ)^{n-j}`. -/
theorem C56_displacement (α : List ℕ → ℂ) (hm : m < M) (hn : n < N) :
    (displacement B α).fockArray [M, N] β [m, n] = some (Complex.exp (-(‖α β‖ : ℂ) ^ 2 / 2) / ((Real.sqrt (m.factorial : ℝ) : ℂ) * (Real.sqrt (n.factorial : ℝ) : ℂ)) *
      ∑ j ∈ Finset.range (m + 1), (m.choose j : ℂ) * (n.choose j : ℂ) * (j.factorial : ℂ) * α β ^ (m - j) * (-(starRingEnd ℂ) (α β)) ^ (n - j)) := by
  unfold displacement
  rw [fock2 (fun _ => rfl) β hm hn, amp2_offdiag rfl rfl rfl]
  refine congrArg some ?_
  show Complex.exp ((-(‖α β‖ ^ 2) / 2 : ℝ) : ℂ) * S2 1 (α β) (-(starRingEnd ℂ) (α β)) m n / (sf m * sf n) = _
  unfold S2 sf
  simp only [one_pow, mul_one]
  rw [mul_div_right_comm]
  refine congrArg (· * _) (congrArg (· / _) (congrArg Complex.exp ?_))
  push_cast
  ring

/-- **C56**: squeezers: `√(m! n! / cosh r) ∑_{j ≤ m, n} (1/cosh r)^j / j! h₊(m-j) h₋(n-j)` with `h±(2k) = (∓ e^{±iφ} tanh r / 2)^k / k!`, `h±(odd) = 0`. -/
theorem C56_squeezing (r φ : List ℕ → ℝ) (hm : m < M) (hn : n < N) :
    (squeezing B r φ).fockArray [M, N] β [m, n] = some ((Real.sqrt (m.factorial : ℝ) : ℂ) * (Real.sqrt (n.factorial : ℝ) : ℂ) / (Real.sqrt (Real.cosh (r β)) : ℂ) *
      ∑ j ∈ Finset.range (m + 1), if j ≤ n then (1 / (Real.cosh (r β) : ℂ)) ^ j / (j.factorial : ℂ) *
        (if (m - j) % 2 = 0 then (-Complex.exp (Complex.I * φ β) * Real.tanh (r β) / 2) ^ ((m - j) / 2) / (((m - j) / 2).factorial : ℂ) else 0) *
        (if (n - j) % 2 = 0 then (Complex.exp (-(Complex.I * φ β)) * Real.tanh (r β) / 2) ^ ((n - j) / 2) / (((n - j) / 2).factorial : ℂ) else 0) else 0) := by
  unfold squeezing
  rw [fock2 (fun _ => rfl) β hm hn]
  refine congrArg some ?_
  refine (amp2_conv (u := hev (-ph (φ β) * ((Real.sinh (r β) : ℂ) / Real.cosh (r β)))) (v := hev (ph (-φ β) * ((Real.sinh (r β) : ℂ) / Real.cosh (r β))))
    rfl (by simp [hev]) (by simp [hev]) (fun m => hev_succ _ m) (fun m => hev_succ _ m) m n).trans ?_
  have e1 : ph (-φ β) = Complex.exp (-(Complex.I * φ β)) := by unfold ph; push_cast; rw [mul_neg]
  have e2 : (Real.tanh (r β) : ℂ) = (Real.sinh (r β) : ℂ) / Real.cosh (r β) := by rw [Real.tanh_eq_sinh_div_cosh]; push_cast; rfl
  rw [e1, e2]
  show 1 / ((Real.sqrt (Real.cosh (r β)) : ℝ) : ℂ) * (sf m * sf n) * conv (1 / (Real.cosh (r β) : ℂ)) _ _ m n = _
  unfold conv hev sf ph
  rw [one_div_mul_eq_div]

/-- **C56**: beam splitters conserve the photon number, and the amplitudes are
`√(m! n! p! q!) ∑_{j+i=m} cos^{j+q-i} (-e^{-iφ} sin)^i (e^{iφ} sin)^{p-j} / (j! i! (p-j)! (q-i)!)`; the indices are (out 0, out 1, in 0, in 1). -/
theorem C56_beamsplitter (θ φ : List ℕ → ℝ) {P Q p q : ℕ} (hm : m < M) (hn : n < N) (hp : p < P) (hq : q < Q) :
    (beamsplitter B θ φ).fockArray [M, N, P, Q] β [m, n, p, q] = some (if m + n = p + q then
      (Real.sqrt (m.factorial * n.factorial * p.factorial * q.factorial) : ℂ) *
      ∑ a ∈ Finset.antidiagonal m, if a.1 ≤ p ∧ a.2 ≤ q then
        (Real.cos (θ β) : ℂ) ^ (a.1 + (q - a.2)) * (-Complex.exp (-(Complex.I * φ β)) * Real.sin (θ β)) ^ a.2 * (Complex.exp (Complex.I * φ β) * Real.sin (θ β)) ^ (p - a.1) /
          ((a.1.factorial : ℂ) * (a.2.factorial : ℂ) * ((p - a.1).factorial : ℂ) * ((q - a.2).factorial : ℂ)) else 0
      else 0) := by
  unfold beamsplitter
  rw [mk_fock (N := 4) (fun _ i hi j hj => by interval_cases i <;> interval_cases j <;> rfl) β rfl (.cons hm (.cons hn (.cons hp (.cons hq .nil))))]
  refine congrArg some ?_
  refine (amp4_bs (C := Real.cos (θ β)) (x := -ph (-φ β) * Real.sin (θ β)) (y := ph (φ β) * Real.sin (θ β)) (D := Real.cos (θ β))
    (fun i hi j hj => by interval_cases i <;> interval_cases j <;> rfl) (fun _ _ => rfl) rfl rfl rfl rfl rfl rfl rfl rfl rfl rfl m n p q).trans ?_
  have e1 : ph (-φ β) = Complex.exp (-(Complex.I * φ β)) := by unfold ph; push_cast; rw [mul_neg]
  have e2 : (Real.sqrt (m.factorial * n.factorial * p.factorial * q.factorial) : ℂ) = sf m * sf n * sf p * sf q := by
    unfold sf
    rw [Real.sqrt_mul (by positivity), Real.sqrt_mul (by positivity), Real.sqrt_mul (by positivity)]
    push_cast
    rfl
  rw [e1, e2]
  unfold TB4
  split_ifs
  · refine congrArg (HMul.hMul _) ?_
    unfold TB
    refine Finset.sum_congr rfl fun a _ => ?_
    unfold pe ph
    by_cases h1 : a.1 ≤ p
    · by_cases h2 : a.2 ≤ q
      · rw [if_pos h1, if_pos h2, if_pos ⟨h1, h2⟩, pow_add]
        ring
      · rw [if_neg h2, if_neg (fun h : a.1 ≤ p ∧ a.2 ≤ q => h2 h.2), mul_zero]
    · rw [if_neg h1, if_neg (fun h : a.1 ≤ p ∧ a.2 ≤ q => h1 h.1)]; ring
  · rw [mul_zero]

/-- **C56**: attenuators: `√(C(k,m) C(l,n)) η^{(m+n)/2} (1-η)^{k-m}` for `k - m = l - n ≥ 0` lost photons. The indices are (out bra, in bra, out ket, in ket). -/
theorem C56_attenuator {η : List ℕ → ℝ} {f : PolyExp} (hf : attenuator B η = some f) {K L k l : ℕ} (hm : m < M) (hk : k < K) (hn : n < N) (hl : l < L) :
    f.fockArray [M, K, N, L] β [m, k, n, l] = some (if m ≤ k ∧ n ≤ l ∧ k - m = l - n then
      ((Real.sqrt (η β) ^ (m + n) * (1 - η β) ^ (k - m) * Real.sqrt (k.choose m * l.choose n) : ℝ) : ℂ) else 0) := by
  unfold attenuator at hf
  split_ifs at hf with h
  obtain rfl := Option.some.inj hf
  rw [mk_fock (N := 4) (fun _ i hi j hj => by interval_cases i <;> interval_cases j <;> rfl) β rfl (.cons hm (.cons hk (.cons hn (.cons hl .nil))))]
  refine congrArg some ?_
  refine (amp4_loss (e := (Real.sqrt (η β) : ℝ)) (f := 1 - η β) (fun i hi j hj => by interval_cases i <;> interval_cases j <;> rfl) (fun _ _ => rfl)
    rfl rfl rfl rfl rfl rfl rfl rfl rfl rfl m k n l).trans ?_
  refine if_congr Iff.rfl ?_ rfl
  push_cast
  rfl

/-- **C56**: amplifiers: `√(C(m,k) C(n,l)) g^{-(k+l)/2} (1-1/g)^{m-k} / g` for `m - k = n - l ≥ 0` added photons. -/
theorem C56_amplifier {g : List ℕ → ℝ} {f : PolyExp} (hf : amplifier B g = some f) {K L k l : ℕ} (hm : m < M) (hk : k < K) (hn : n < N) (hl : l < L) :
    f.fockArray [M, K, N, L] β [m, k, n, l] = some (if k ≤ m ∧ l ≤ n ∧ m - k = n - l then
      ((1 / g β * (1 / Real.sqrt (g β)) ^ (k + l) * (1 - 1 / g β) ^ (m - k) * Real.sqrt (m.choose k * n.choose l) : ℝ) : ℂ) else 0) := by
  unfold amplifier at hf
  split_ifs at hf with h
  obtain rfl := Option.some.inj hf
  rw [mk_fock (N := 4) (fun _ i hi j hj => by interval_cases i <;> interval_cases j <;> rfl) β rfl (.cons hm (.cons hk (.cons hn (.cons hl .nil)))), amp_smul]
  refine congrArg some ?_
  refine (congrArg (HMul.hMul _) (amp4_gain (e := 1 / ((Real.sqrt (g β) : ℝ) : ℂ)) (f := 1 - 1 / (g β : ℂ)) (fun i hi j hj => by interval_cases i <;> interval_cases j <;> rfl)
    (fun _ _ => rfl) rfl rfl rfl rfl rfl rfl rfl rfl rfl rfl m k n l)).trans ?_
  split_ifs
  · push_cast
    ring
  · rw [mul_zero]

/-- **C56**: quadrature eigenstates: `ħ^{1/4} e^{inφ} ψ_n(x)` with the Hermite functions `ψ_n`. (The factor `ħ^{1/4}` is the normalisation that the code omits.) -/
theorem C56_quadrature (hbar : ℝ) (hb : 0 < hbar) (x φ : List ℕ → ℝ) (hn : n < N) :
    (quadratureEigen hbar B x φ).fockArray [N] β [n] =
      some (Complex.exp (Complex.I * (n * φ β)) * ((hbar ^ (1 / 4 : ℝ) * Osc.psi hbar n (x β) : ℝ) : ℂ)) := by
  unfold quadratureEigen
  rw [fock1 β hn]
  refine congrArg some ?_
  set y := x β / Real.sqrt hbar with hy
  set c : ℂ := ((1 / Real.pi ^ (1 / 4 : ℝ) * Real.exp (-(x β) ^ 2 / (2 * hbar)) : ℝ) : ℂ) with hc
  have s2 : ((Real.sqrt 2 : ℝ) : ℂ) ≠ 0 := by simp
  have s2' : ((Real.sqrt 2 : ℝ) : ℂ) ^ 2 = 2 := by rw [← Complex.ofReal_pow, Real.sq_sqrt (by norm_num)]; norm_num
  rw [amp1_of (fun n => c * ph (φ β) ^ n * (Osc.H n y : ℂ) / (((Real.sqrt 2 : ℝ) : ℂ) ^ n * (n.factorial : ℂ))) (by simp [Osc.H]) (fun n => ?_) n]
  · have h1 : ph (φ β) ^ n = Complex.exp (Complex.I * (n * φ β)) := by
      unfold ph
      rw [← Complex.exp_nat_mul]
      refine congrArg Complex.exp ?_
      ring
    have h2 : Real.sqrt (2 ^ n * n.factorial) = Real.sqrt 2 ^ n * Real.sqrt n.factorial := by
      rw [Real.sqrt_mul (by positivity)]
      refine congrArg (· * _) ?_
      rw [Real.sqrt_eq_iff_mul_self_eq (by positivity) (by positivity), ← mul_pow, Real.mul_self_sqrt (by norm_num)]
    have h3 : (Real.pi * hbar) ^ (-(1 / 4) : ℝ) = 1 / Real.pi ^ (1 / 4 : ℝ) * (1 / hbar ^ (1 / 4 : ℝ)) := by
      rw [Real.mul_rpow Real.pi_pos.le hb.le, Real.rpow_neg Real.pi_pos.le, Real.rpow_neg hb.le]
      simp only [one_div]
    have h4 : hbar ^ (1 / 4 : ℝ) ≠ 0 := (Real.rpow_pos_of_pos hb _).ne'
    have h5 : hbar ^ (1 / 4 : ℝ) * Osc.psi hbar n (x β) =
        (1 / Real.pi ^ (1 / 4 : ℝ) * Real.exp (-(x β) ^ 2 / (2 * hbar))) * Osc.H n y / (Real.sqrt 2 ^ n * Real.sqrt n.factorial) := by
      unfold Osc.psi
      rw [h2, h3, ← hy, ← neg_div]
      field_simp
    rw [h5, ← h1, Complex.ofReal_div, Complex.ofReal_mul, ← hc]
    have h6 := sf_sq n
    have h7 := sf_ne n
    have h8 : ((Real.sqrt n.factorial : ℝ) : ℂ) = sf n := rfl
    rw [Complex.ofReal_mul, h8, ← h6]
    push_cast
    field_simp
  · have hbv : (vec [(x β : ℂ) * ph (φ β) * ((Real.sqrt (2 / hbar) : ℝ) : ℂ)]) 0 = ((Real.sqrt 2 : ℝ) : ℂ) * (y : ℂ) * ph (φ β) := by
      show (x β : ℂ) * ph (φ β) * ((Real.sqrt (2 / hbar) : ℝ) : ℂ) = _
      rw [hy, Real.sqrt_div (by norm_num)]
      push_cast
      ring
    have hAv : (mat [[-Complex.exp (Complex.I * 2 * φ β)]]) 0 0 = -ph (φ β) ^ 2 := by
      show -Complex.exp (Complex.I * 2 * φ β) = _
      unfold ph
      rw [← Complex.exp_nat_mul]
      refine congrArg Neg.neg (congrArg Complex.exp ?_)
      push_cast
      ring
    rw [hbv, hAv]
    have h1 : ((n : ℂ) + 1) ≠ 0 := by exact_mod_cast Nat.succ_ne_zero n
    have h2 : (n.factorial : ℂ) ≠ 0 := by exact_mod_cast n.factorial_ne_zero
    cases n with
    | zero =>
      simp [Osc.H, pr]
      field_simp
      rw [s2']
      ring
    | succ n =>
      have h3 : ((n : ℂ) + 1) ≠ 0 := by exact_mod_cast Nat.succ_ne_zero n
      have h4 : (n.factorial : ℂ) ≠ 0 := by exact_mod_cast n.factorial_ne_zero
      simp only [pr, Osc.H]
      rw [Nat.factorial_succ (n + 1), Nat.factorial_succ n]
      push_cast at h1 ⊢
      generalize ((Real.sqrt 2 : ℝ) : ℂ) = w at s2 s2' ⊢
      have e : w ^ (n + 1 + 1) = w ^ n * 2 := by rw [← s2']; ring
      rw [e, pow_succ w n]
      field_simp
      ring

/-! ### Cases -/

/-- One photon on a beam splitter. -/
example (θ φ : List ℕ → ℝ) : (beamsplitter [] θ φ).fockArray [2, 2, 2, 2] [] [0, 1, 1, 0] = some (Complex.exp (Complex.I * φ []) * Real.sin (θ [])) := by
  rw [C56_beamsplitter [] [] θ φ (by omega) (by omega) (by omega) (by omega)]
  simp

/-- Two photons on a balanced beam splitter bunch (Hong–Ou–Mandel). -/
example : (beamsplitter [] (fun _ => Real.pi / 4) fun _ => 0).fockArray [3, 3, 3, 3] [] [1, 1, 1, 1] = some 0 := by
  rw [C56_beamsplitter [] [] _ _ (by omega) (by omega) (by omega) (by omega)]
  have h := Real.cos_pi_div_four
  have h' := Real.sin_pi_div_four
  simp only [h, h']
  rw [show Finset.antidiagonal 1 = {(0, 1), (1, 0)} from rfl]
  simp
  ring

/-- An attenuator of efficiency 1/2 loses one of two photons with probability 1/2. -/
example : ∃ f, attenuator [] (fun _ => 1 / 2) = some f ∧ f.fockArray [3, 3, 3, 3] [] [1, 2, 1, 2] = some (1 / 2) := by
  have e1 : ¬ ((∃ β ∈ ndindex [], (1 / 2 : ℝ) > 1) ∨ ∃ β ∈ ndindex [], (1 / 2 : ℝ) < 0) := by norm_num
  refine ⟨_, if_neg e1, ?_⟩
  refine (C56_attenuator [] [] (η := fun _ => 1 / 2) (if_neg e1) (by omega) (by omega) (by omega) (by omega)).trans ?_
  have : Real.sqrt (1 / 2) ^ 2 = 1 / 2 := Real.sq_sqrt (by norm_num)
  have h2 : Real.sqrt 4 = 2 := by rw [show (4 : ℝ) = 2 * 2 by norm_num, Real.sqrt_mul_self (by norm_num)]
  norm_num [this, h2]

end Verif.Triples
