import Verif.Model.Fourier
import Verif.Lemmas.Fir
import Mathlib.RingTheory.RootsOfUnity.Complex
import Mathlib.RingTheory.RootsOfUnity.PrimitiveRoots
import Mathlib.Tactic.LinearCombination

/-
Orthogonality of the discrete Fourier transform.
-/

namespace Verif

open Complex Finset Spec

/-- `exp(2πi t)`. -/
noncomputable def turn (t : ℂ) : ℂ := cexp (2 * Real.pi * I * t)

theorem turn_add (s t : ℂ) : turn (s + t) = turn s * turn t := by
  simp only [turn, mul_add, Complex.exp_add]

theorem turn_int (k : ℤ) : turn (k : ℂ) = 1 := by
  unfold turn
  rw [mul_comm]
  exact Complex.exp_int_mul_two_pi_mul_I k

theorem turn_add_int (t : ℂ) (k : ℤ) : turn (t + k) = turn t := by
  rw [turn_add, turn_int, mul_one]

theorem turn_zero : turn 0 = 1 := by simp [turn]

theorem turn_nat_mul (n : ℕ) (t : ℂ) : turn (n * t) = turn t ^ n := by
  unfold turn
  rw [← Complex.exp_nat_mul]; congr 1; ring

theorem turn_real_norm (t : ℝ) : ‖turn (t : ℂ)‖ = 1 := by
  unfold turn
  rw [show (2 * Real.pi * I * (t : ℂ)) = ((2 * Real.pi * t : ℝ) : ℂ) * I by push_cast; ring]
  exact Complex.norm_exp_ofReal_mul_I _

theorem turn_conj (t : ℝ) : (starRingEnd ℂ) (turn (t : ℂ)) = turn (-(t : ℂ)) := by
  unfold turn
  rw [← Complex.exp_conj]
  congr 1
  simp only [map_mul, Complex.conj_ofReal, Complex.conj_I, map_ofNat]
  ring

/-- Orthogonality: `∑_k exp(2πi k (n-m)/N) = N [n = m]`. -/
theorem turn_orthogonal (N n m : ℕ) (hn : n < N) (hm : m < N) :
    ∑ k ∈ range N, turn ((k : ℂ) * ((n : ℂ) - (m : ℂ)) / (N : ℂ)) = if n = m then (N : ℂ) else 0 := by
  have hN : (N : ℂ) ≠ 0 := by exact_mod_cast (by omega : N ≠ 0)
  split
  · rename_i h
    subst h
    simp [turn_zero]
  · rename_i h
    have hz : ∀ k ∈ range N, turn ((k : ℂ) * ((n : ℂ) - (m : ℂ)) / (N : ℂ)) = turn (((n : ℂ) - (m : ℂ)) / (N : ℂ)) ^ k := by
      intro k _
      rw [← turn_nat_mul]; congr 1; ring
    rw [sum_congr rfl hz]
    have hne : turn (((n : ℂ) - (m : ℂ)) / (N : ℂ)) ≠ 1 := by
      intro h1
      unfold turn at h1
      rw [Complex.exp_eq_one_iff] at h1
      obtain ⟨c, hc⟩ := h1
      have hpi : (2 * Real.pi * I : ℂ) ≠ 0 := Complex.two_pi_I_ne_zero
      have : ((n : ℂ) - m) / N = c := by
        apply mul_left_cancel₀ hpi
        rw [hc]; ring
      rw [div_eq_iff hN] at this
      have h2 : (n : ℤ) - m = c * N := by exact_mod_cast this
      have h3 : |(n : ℤ) - m| < N := by rw [abs_lt]; constructor <;> omega
      have : c = 0 := by
        by_contra hc0
        have : (1 : ℤ) ≤ |c| := Int.one_le_abs hc0
        rw [h2, abs_mul, Nat.abs_cast] at h3
        nlinarith
      rw [this] at h2
      omega
    have hpow : turn (((n : ℂ) - (m : ℂ)) / (N : ℂ)) ^ N = 1 := by
      rw [← turn_nat_mul, show (N : ℂ) * (((n : ℂ) - m) / N) = (((n : ℤ) - (m : ℤ) : ℤ) : ℂ) by
        push_cast; field_simp]
      exact turn_int _
    have := geom_sum_mul (turn (((n : ℂ) - (m : ℂ)) / (N : ℂ))) N
    rw [hpow, sub_self] at this
    exact (mul_eq_zero.mp this).resolve_right (sub_ne_zero.mpr hne)

/-- The inversion formula. -/
theorem dft_inversion (N : ℕ) (f : ℕ → ℂ) (n : ℕ) (hn : n < N) :
    ∑ k ∈ range N, (∑ m ∈ range N, f m * turn (-((k : ℂ) * (m : ℂ) / (N : ℂ)))) * turn ((k : ℂ) * (n : ℂ) / (N : ℂ))
      = N * f n := by
  simp only [Finset.sum_mul]
  rw [sum_comm]
  have : ∀ m ∈ range N, ∑ k ∈ range N, f m * turn (-((k : ℂ) * (m : ℂ) / (N : ℂ))) * turn ((k : ℂ) * (n : ℂ) / (N : ℂ))
      = f m * (if n = m then (N : ℂ) else 0) := by
    intro m hm
    rw [← turn_orthogonal N n m hn (mem_range.mp hm), mul_sum]
    apply sum_congr rfl
    intro k _
    rw [mul_assoc, ← turn_add]
    congr 2; ring
  rw [sum_congr rfl this]
  simp only [mul_ite, mul_zero]
  rw [sum_ite_eq, if_pos (mem_range.mpr hn), mul_comm]

/-- Parseval's identity. -/
theorem dft_parseval (N : ℕ) (f : ℕ → ℂ) :
    ∑ k ∈ range N, ‖∑ m ∈ range N, f m * turn (-((k : ℂ) * (m : ℂ) / (N : ℂ)))‖ ^ 2 = N * ∑ m ∈ range N, ‖f m‖ ^ 2 := by
  have key : ∑ k ∈ range N, ((∑ m ∈ range N, f m * turn (-((k : ℂ) * (m : ℂ) / (N : ℂ)))) *
      (starRingEnd ℂ) (∑ m ∈ range N, f m * turn (-((k : ℂ) * (m : ℂ) / (N : ℂ))))) =
      N * ∑ m ∈ range N, f m * (starRingEnd ℂ) (f m) := by
    have h1 : ∀ k ∈ range N, ((∑ m ∈ range N, f m * turn (-((k : ℂ) * (m : ℂ) / (N : ℂ)))) *
        (starRingEnd ℂ) (∑ m ∈ range N, f m * turn (-((k : ℂ) * (m : ℂ) / (N : ℂ))))) =
        ∑ n ∈ range N, (starRingEnd ℂ) (f n) * ((∑ m ∈ range N, f m * turn (-((k : ℂ) * (m : ℂ) / (N : ℂ)))) *
          turn ((k : ℂ) * (n : ℂ) / (N : ℂ))) := by
      intro k _
      rw [map_sum, mul_sum]
      apply sum_congr rfl
      intro n _
      rw [map_mul]
      have : (starRingEnd ℂ) (turn (-((k : ℂ) * (n : ℂ) / (N : ℂ)))) = turn ((k : ℂ) * (n : ℂ) / (N : ℂ)) := by
        have := turn_conj (-((k : ℝ) * n / N))
        push_cast at this
        rw [this, neg_neg]
      rw [this]; ring
    rw [sum_congr rfl h1, sum_comm, mul_sum]
    apply sum_congr rfl
    intro n hn
    rw [← mul_sum, dft_inversion N f n (mem_range.mp hn)]
    ring
  simp only [Complex.mul_conj, Complex.normSq_eq_norm_sq] at key
  exact_mod_cast key

theorem fft_length (l : List ℂ) : (fft l).length = l.length := by simp [fft]
theorem ifft_length (l : List ℂ) : (ifft l).length = l.length := by simp [ifft]

theorem at0_fft (l : List ℂ) (k : ℕ) (hk : k < l.length) :
    at0 (fft l) k = ∑ n ∈ range l.length, at0 l n * turn (-((k : ℂ) * (n : ℂ) / (l.length : ℂ))) := by
  rw [at0_of_lt _ _ (by rwa [fft_length])]
  simp only [fft, List.getElem_map, List.getElem_range]
  apply sum_congr rfl
  intro n _
  rw [turn]; congr 2; ring

theorem at0_ifft (l : List ℂ) (n : ℕ) (hn : n < l.length) :
    at0 (ifft l) n = (∑ k ∈ range l.length, at0 l k * turn ((k : ℂ) * (n : ℂ) / (l.length : ℂ))) / (l.length : ℂ) := by
  rw [at0_of_lt _ _ (by rwa [ifft_length])]
  simp only [ifft, List.getElem_map, List.getElem_range]
  congr 1
  apply sum_congr rfl
  intro k _
  rw [turn]; congr 2; ring

theorem halfRotate_length (y : List ℂ) : (halfRotate y).length = y.length := by
  simp [halfRotate]; omega

theorem at0_halfRotate (y : List ℂ) (k : ℕ) (hk : k < y.length) :
    at0 (halfRotate y) k = at0 y ((k + y.length / 2) % y.length) := by
  unfold halfRotate
  rw [← List.rotate_eq_drop_append_take (Nat.div_le_self _ _)]
  rw [at0_of_lt _ _ (by simpa using hk), List.getElem_rotate, at0_of_lt]

end Verif
