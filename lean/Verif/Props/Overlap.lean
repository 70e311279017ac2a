import Verif.Props.WindowShape
import Verif.Spec.Overlap
import Verif.Lemmas.Fir
import Mathlib.Tactic.LinearCombination
import Mathlib.Tactic.FieldSimp

/-!
Property C146: frames through WindowFilter which overlap (diamondback/filters/window_filter.py:68-106).
-/

namespace Verif.Props

open Verif Verif.Spec Finset

theorem turn_sum_phase (N j : ℕ) (hN : 0 < N) (hj : ¬ N ∣ j) (φ : ℝ) : ∑ n ∈ range N, Real.cos (φ + 2 * Real.pi * j * n / N) = 0 := by
  have hN' : (N : ℂ) ≠ 0 := by exact_mod_cast hN.ne'
  have hp := Complex.isPrimitiveRoot_exp N hN.ne'
  have h1 : Complex.exp (2 * Real.pi * Complex.I / N) ^ j ≠ 1 := fun h => hj ((hp.pow_eq_one_iff_dvd j).mp h)
  have h2 := geom_sum_mul (Complex.exp (2 * Real.pi * Complex.I / N) ^ j) N
  rw [← pow_mul, mul_comm j N, pow_mul, hp.pow_eq_one, one_pow, sub_self] at h2
  have h3 := (mul_eq_zero.mp h2).resolve_right (sub_ne_zero.mpr h1)
  have h4 : ∑ n ∈ range N, Complex.exp ((φ + 2 * Real.pi * j * n / N : ℝ) * Complex.I) = 0 := by
    have : ∀ n ∈ range N, Complex.exp ((φ + 2 * Real.pi * j * n / N : ℝ) * Complex.I) = Complex.exp (φ * Complex.I) * (Complex.exp (2 * Real.pi * Complex.I / N) ^ j) ^ n := by
      intro n _
      rw [← Complex.exp_nat_mul, ← Complex.exp_nat_mul, ← Complex.exp_add]
      congr 1
      push_cast
      ring
    rw [sum_congr rfl this, ← mul_sum, h3, mul_zero]
  have h5 := congrArg Complex.re h4
  rw [Complex.re_sum, Complex.zero_re] at h5
  rw [← h5]
  exact sum_congr rfl fun n _ => (Complex.exp_ofReal_mul_I_re _).symm

/-- A sum of three cosines sampled at the hops. -/
private theorem hop_sum (N m h : ℕ) (hN : N = m * h) (hh : 0 < h) (hm : 2 ≤ m) (α β γ : ℝ) (hγ : γ = 0 ∨ 3 ≤ m) (p : ℕ → ℝ)
    (hp : ∀ t ≤ N, p t = α - β * Real.cos (2 * Real.pi * t / N) + γ * Real.cos (4 * Real.pi * t / N)) (r : ℕ) (hr : r < h) :
    ∑ i ∈ range m, p (r + i * h) = m * α := by
  have hN0 : 0 < N := by rw [hN]; exact Nat.mul_pos (by omega) hh
  have hh' : (h : ℝ) ≠ 0 := by exact_mod_cast hh.ne'
  have hm' : (m : ℝ) ≠ 0 := by exact_mod_cast (by omega : m ≠ 0)
  have hle : ∀ i ∈ range m, r + i * h ≤ N := by
    intro i hi
    have : i + 1 ≤ m := mem_range.mp hi
    rw [hN]
    nlinarith
  have hcast : ∀ i : ℕ, ∀ c : ℝ, c * Real.pi * ((r + i * h : ℕ) : ℝ) / N = c * Real.pi * r / N + c * Real.pi * i / m := by
    intro i c
    rw [hN]
    push_cast
    field_simp
  have s1 : ∑ i ∈ range m, Real.cos (2 * Real.pi * ((r + i * h : ℕ) : ℝ) / N) = 0 := by
    rw [← turn_sum_phase m 1 (by omega) (by rw [Nat.dvd_one]; omega) (2 * Real.pi * r / N)]
    refine sum_congr rfl fun i _ => ?_
    rw [hcast]
    push_cast
    rw [mul_one]
  have s2 : γ * ∑ i ∈ range m, Real.cos (4 * Real.pi * ((r + i * h : ℕ) : ℝ) / N) = 0 := by
    rcases hγ with h | h
    · rw [h, zero_mul]
    · rw [← mul_zero γ, ← turn_sum_phase m 2 (by omega) (fun hd => by have := Nat.le_of_dvd (by norm_num) hd; omega) (4 * Real.pi * r / N)]
      congr 1
      refine sum_congr rfl fun i _ => ?_
      rw [hcast]
      push_cast
      congr 2
      ring
  rw [sum_congr rfl fun i hi => hp _ (hle i hi), sum_add_distrib, sum_sub_distrib, ← mul_sum, ← mul_sum, s1, s2]
  simp

/-- Inside, every sample is met by `m` frames (and the edges of two frames). -/
private theorem overlap_core (N m h : ℕ) (hN : N = m * h) (hh : 0 < h) (hm : 2 ≤ m) (α β γ : ℝ) (hγ : γ = 0 ∨ 3 ≤ m) (p : ℕ → ℝ)
    (hp : ∀ t ≤ N, p t = α - β * Real.cos (2 * Real.pi * t / N) + γ * Real.cos (4 * Real.pi * t / N)) (hz : ∀ t, N < t → p t = 0) (J n : ℕ) (h1 : N ≤ n + h) (h2 : n ≤ J * h) :
    (α - β + γ = 0 ∨ ¬ h ∣ n → (∑ j ∈ range J, if j * h ≤ n then p (n - j * h) else 0) = m * α) ∧
    (h ∣ n → N ≤ n → n < J * h → (∑ j ∈ range J, if j * h ≤ n then p (n - j * h) else 0) = m * α + (α - β + γ)) := by
  have hN0 : 0 < N := by rw [hN]; exact Nat.mul_pos (by omega) hh
  have hN' : (N : ℝ) ≠ 0 := by exact_mod_cast hN0.ne'
  have p0 : p 0 = α - β + γ := by rw [hp 0 (by omega)]; simp
  have pN : p N = α - β + γ := by
    rw [hp N le_rfl, mul_div_assoc, div_self hN', mul_div_assoc, div_self hN', mul_one, mul_one, Real.cos_two_pi, show 4 * Real.pi = 2 * Real.pi + 2 * Real.pi by ring, Real.cos_add_two_pi, Real.cos_two_pi]
    ring
  obtain ⟨q, r, hr, hn⟩ : ∃ q r, r < h ∧ n = q * h + r := ⟨n / h, n % h, Nat.mod_lt _ hh, (Nat.div_add_mod' n h).symm⟩
  have hmq : m ≤ q + 1 := by
    by_contra hc
    have : (q + 2) * h ≤ m * h := Nat.mul_le_mul_right _ (by omega)
    have e : (q + 2) * h = q * h + h + h := by ring
    omega
  have hdiff : ∀ j, j ≤ q → n - j * h = r + (q - j) * h := by
    intro j hj
    have : (q - j) * h = q * h - j * h := Nat.sub_mul _ _ _
    have := Nat.mul_le_mul_right h hj
    omega
  have hgt : ∀ j, q < j → ¬ j * h ≤ n := by
    intro j hj hc
    have := Nat.mul_le_mul_right h (show q + 1 ≤ j from hj)
    have e : (q + 1) * h = q * h + h := by ring
    omega
  have hlej : ∀ j, j ≤ q → j * h ≤ n := by
    intro j hj
    have := Nat.mul_le_mul_right h hj
    omega
  have base := hop_sum N m h hN hh hm α β γ hγ p hp r hr
  -- any stretch of `M` frames up to number `q`
  have stretch : ∀ M, M ≤ q + 1 → ∑ j ∈ Ico (q + 1 - M) (q + 1), (if j * h ≤ n then p (n - j * h) else 0) = ∑ i ∈ range M, p (r + i * h) := by
    intro M hM
    rw [sum_Ico_eq_sum_range, show q + 1 - (q + 1 - M) = M by omega, ← sum_range_reflect]
    refine sum_congr rfl fun i hi => ?_
    have hi := mem_range.mp hi
    rw [if_pos (hlej _ (by omega)), hdiff _ (by omega)]
    congr 3
    omega
  constructor
  · intro hcase
    have hJ : ∑ j ∈ range J, (if j * h ≤ n then p (n - j * h) else 0) = ∑ j ∈ range (J + 1), (if j * h ≤ n then p (n - j * h) else 0) := by
      rw [sum_range_succ]
      split
      · next hle =>
        have : n = J * h := le_antisymm h2 hle
        rcases hcase with hc | hc
        · rw [this, Nat.sub_self, p0, hc, add_zero]
        · exact absurd ⟨J, by rw [this, mul_comm]⟩ hc
      · rw [add_zero]
    rw [hJ, ← base, ← stretch m hmq]
    symm
    refine sum_subset (fun j hj => ?_) (fun j _ hj => ?_)
    · rw [mem_Ico] at hj
      rw [mem_range]
      have := hlej j (by omega)
      exact Nat.lt_succ_of_le (Nat.le_of_mul_le_mul_right (this.trans h2) hh)
    · rw [mem_Ico, not_and_or] at hj
      by_cases hjq : q < j
      · rw [if_neg (hgt j hjq)]
      · have hj' : j + m ≤ q := by omega
        rw [if_pos (hlej j (by omega)), hdiff j (by omega)]
        have : m * h ≤ (q - j) * h := Nat.mul_le_mul_right _ (by omega)
        rcases Nat.lt_or_ge N (r + (q - j) * h) with hlt | hge
        · exact hz _ hlt
        · have e1 : r + (q - j) * h = N := by omega
          have e2 : r = 0 := by omega
          rw [e1, pN]
          rcases hcase with hc | hc
          · exact hc
          · exact absurd ⟨q, by rw [hn, e2, add_zero, mul_comm]⟩ hc
  · intro hd hNn hlt
    have r0 : r = 0 := by
      have : h ∣ r := (Nat.dvd_add_right (Dvd.intro_left q rfl)).mp (hn ▸ hd)
      exact Nat.eq_zero_of_dvd_of_lt this hr
    subst r0
    have hmq' : m + 1 ≤ q + 1 := by
      have : m * h ≤ q * h := by omega
      exact Nat.succ_le_succ (Nat.le_of_mul_le_mul_right this hh)
    have := stretch (m + 1) hmq'
    rw [sum_range_succ, base, zero_add, ← hN, pN] at this
    rw [← this]
    symm
    refine sum_subset (fun j hj => ?_) (fun j _ hj => ?_)
    · rw [mem_Ico] at hj
      rw [mem_range]
      exact Nat.lt_of_mul_lt_mul_right (lt_of_le_of_lt (hlej j (by omega)) hlt)
    · rw [mem_Ico, not_and_or] at hj
      by_cases hjq : q < j
      · rw [if_neg (hgt j hjq)]
      · rw [if_pos (hlej j (by omega)), hdiff j (by omega)]
        refine hz _ ?_
        have : (m + 1) * h ≤ (q - j) * h := Nat.mul_le_mul_right _ (by omega)
        have e : (m + 1) * h = m * h + h := by ring
        omega

private theorem frame_value (w x : List ℝ) (N s k : ℕ) (hw : w.length = N + 1) (hx : s + N + 1 ≤ x.length) :
    at0 (List.zipWith (· * ·) w ((x.drop s).take (N + 1))) k = at0 w k * at0 x (s + k) := by
  by_cases hk : k < N + 1
  · rw [at0_of_lt _ _ (by simp; omega), at0_of_lt _ _ (by omega), at0_of_lt _ _ (by omega)]
    simp
  · rw [at0_of_le _ _ (by simp; omega), at0_of_le w _ (by omega), zero_mul]

/-- The windows which are sums of cosines, with their factor. -/
private theorem cosine_form (style : WStyle) (N : ℕ) (hN : 0 < N) (normal : Bool) (w : Window) (hw : Window.new (some style) N normal = .ok (some w)) :
    ∃ K : ℝ, (normal = false → K = 1) ∧ (normal = true → K * ∑ n ∈ range (N + 1), window.value style (N + 1) n = N + 1) ∧ (∀ t, N < t → at0 w.b t = 0) ∧
      (style = .hann → ∀ t ≤ N, at0 w.b t = 0.5 * K - 0.5 * K * Real.cos (2 * Real.pi * t / N) + 0 * Real.cos (4 * Real.pi * t / N)) ∧
      (style = .hamming → ∀ t ≤ N, at0 w.b t = 0.54 * K - 0.46 * K * Real.cos (2 * Real.pi * t / N) + 0 * Real.cos (4 * Real.pi * t / N)) ∧
      (style = .blackman → ∀ t ≤ N, at0 w.b t = 0.42 * K - 0.5 * K * Real.cos (2 * Real.pi * t / N) + 0.08 * K * Real.cos (4 * Real.pi * t / N)) := by
  obtain ⟨K, -, k1, k2, hv⟩ := window_coeffs style N normal w hw
  have hlen := (C39_window_symmetric style N normal w hw).1
  have hN' : (N : ℝ) ≠ 0 := by exact_mod_cast hN.ne'
  have hfac : ∀ t : ℕ, Real.cos (-Real.pi + 2 * Real.pi * t / (((N + 1 : ℕ) : ℝ) - 1)) = -Real.cos (2 * Real.pi * t / N) := by
    intro t
    rw [show ((N + 1 : ℕ) : ℝ) - 1 = N by push_cast; ring, neg_add_eq_sub, Real.cos_sub_pi]
  have hfac2 : ∀ t : ℕ, Real.cos (2 * (-Real.pi + 2 * Real.pi * t / (((N + 1 : ℕ) : ℝ) - 1))) = Real.cos (4 * Real.pi * t / N) := by
    intro t
    rw [show ((N + 1 : ℕ) : ℝ) - 1 = N by push_cast; ring, show 2 * (-Real.pi + 2 * Real.pi * t / N) = 4 * Real.pi * t / N - 2 * Real.pi by ring, Real.cos_sub_two_pi]
  refine ⟨K, k1, k2, fun t ht => at0_of_le _ _ (by omega), ?_, ?_, ?_⟩ <;>
  · rintro rfl t ht
    rw [hv t ht]
    simp only [window.value, if_neg (by omega : ¬ N + 1 = 1), window.cosine, hfac, hfac2]
    ring

/-- C146: overlap and add.  Frames of `m * h + 1` samples which start `h` samples apart, through a window of order `m * h`, add up to a multiple of the signal where they meet it fully: with Hann from half overlap on, with Blackman from
two thirds on.  With Hamming the samples at multiples of `h` are too large by 0.08, as the ends of two frames fall on them. -/
theorem C146_overlap_add (style : WStyle) (m h : ℕ) (hh : 0 < h) (hm : 2 ≤ m) (normal : Bool) (w : Window) (hw : Window.new (some style) ((m * h : ℕ) : ℤ) normal = .ok (some w)) (x : List ℝ) (J : ℕ) (hJ : 0 < J)
    (hx : (J - 1) * h + m * h + 1 ≤ x.length) :
    ∃ frames : ℕ → List ℝ, (∀ j < J, w.filter (some ((x.drop (j * h)).take (m * h + 1))) = .ok (frames j)) ∧ ∀ n, m * h ≤ n + h → n ≤ J * h →
      (style = .hann → overlapAdd frames h J n = (if normal then ((m : ℝ) * h + 1) / h else (m : ℝ) / 2) * at0 x n) ∧
      (style = .blackman → 3 ≤ m → overlapAdd frames h J n = (if normal then ((m : ℝ) * h + 1) / h else (0.42 : ℝ) * m) * at0 x n) ∧
      (style = .hamming → m * h ≤ n → n < J * h → overlapAdd frames h J n = (if normal then ((m : ℝ) * h + 1) / (0.54 * (m * h) + 0.08) else 1) * (0.54 * (m : ℝ) + if h ∣ n then (0.08 : ℝ) else 0) * at0 x n) := by
  have hN0 : 0 < m * h := Nat.mul_pos (by omega) hh
  have hN2 : 2 ≤ m * h := le_trans hm (Nat.le_mul_of_pos_right m hh)
  have hlen := (C39_window_symmetric style (m * h) normal w hw).1
  obtain ⟨K, k1, k2, hz, c1, c2, c3⟩ := cosine_form style (m * h) hN0 normal w hw
  have hh' : (0 : ℝ) < h := by exact_mod_cast hh
  have hm' : (0 : ℝ) < m := by exact_mod_cast (by omega : 0 < m)
  have hjx : ∀ j < J, j * h + m * h + 1 ≤ x.length := by
    intro j hj
    have := Nat.mul_le_mul_right h (show j ≤ J - 1 by omega)
    omega
  refine ⟨fun j => List.zipWith (· * ·) w.b ((x.drop (j * h)).take (m * h + 1)), fun j hj => ?_, fun n h1 h2 => ?_⟩
  · have := hjx j hj
    unfold Window.filter
    simp only
    rw [if_neg]
    rw [hlen]
    simp
    omega
  · have hsum : overlapAdd (fun j => List.zipWith (· * ·) w.b ((x.drop (j * h)).take (m * h + 1))) h J n = (∑ j ∈ range J, if j * h ≤ n then at0 w.b (n - j * h) else 0) * at0 x n := by
      unfold overlapAdd
      rw [sum_mul]
      refine sum_congr rfl fun j hj => ?_
      split
      · next hle => rw [frame_value _ _ _ _ _ hlen (hjx j (mem_range.mp hj)), Nat.add_sub_cancel' hle]
      · rw [zero_mul]
    rw [hsum]
    refine ⟨?_, ?_, ?_⟩
    · rintro rfl
      rw [(overlap_core (m * h) m h rfl hh hm (0.5 * K) (0.5 * K) 0 (.inl rfl) _ (c1 rfl) hz J n h1 h2).1 (.inl (by ring))]
      congr 1
      cases normal with
      | false => rw [k1 rfl]; simp; ring
      | true =>
        have := k2 rfl
        rw [(window_sum .hann (m * h)).1 rfl hN2] at this
        push_cast at this
        rw [if_pos rfl]
        field_simp
        linarith
    · rintro rfl h3
      rw [(overlap_core (m * h) m h rfl hh hm (0.42 * K) (0.5 * K) (0.08 * K) (.inr h3) _ (c3 rfl) hz J n h1 h2).1 (.inl (by ring))]
      congr 1
      cases normal with
      | false => rw [k1 rfl]; simp; ring
      | true =>
        have := k2 rfl
        rw [(window_sum .blackman (m * h)).2.2 rfl (le_trans h3 (Nat.le_mul_of_pos_right m hh))] at this
        push_cast at this
        rw [if_pos rfl]
        field_simp
        linarith
    · rintro rfl h3 h4
      have hK : K = if normal then ((m : ℝ) * h + 1) / (0.54 * (m * h) + 0.08) else 1 := by
        cases normal with
        | false => rw [k1 rfl]; simp
        | true =>
          have := k2 rfl
          rw [(window_sum .hamming (m * h)).2.1 rfl hN2] at this
          push_cast at this
          rw [if_pos rfl, eq_div_iff (by positivity)]
          exact this
      rw [← hK]
      congr 1
      have core := overlap_core (m * h) m h rfl hh hm (0.54 * K) (0.46 * K) 0 (.inl rfl) _ (c2 rfl) hz J n h1 h2
      split
      · next hd => rw [core.2 hd h3 h4]; ring
      · next hd => rw [core.1 (.inr hd)]; ring

/-- Concrete case of C146: order 4, hop 2, a signal of nine samples, three frames. -/
example : (3 - 1) * 2 + 2 * 2 + 1 ≤ ([1, 2, 3, 4, 5, 6, 7, 8, 9] : List ℝ).length ∧ 2 * 2 ≤ 4 + 2 ∧ 4 ≤ 3 * 2 := by
  refine ⟨by simp, by norm_num, by norm_num⟩

private theorem energy_swap (w x : List ℝ) (N h J : ℕ) (hw : w.length = N + 1) (hx : ∀ j < J, j * h + N + 1 ≤ x.length) :
    frameEnergy (fun j => List.zipWith (· * ·) w ((x.drop (j * h)).take (N + 1))) J = ∑ n ∈ range x.length, (∑ j ∈ range J, if j * h ≤ n then at0 w (n - j * h) ^ 2 else 0) * at0 x n ^ 2 := by
  unfold frameEnergy
  simp only [sum_mul]
  rw [sum_comm]
  refine sum_congr rfl fun j hj => ?_
  have hj := hx j (mem_range.mp hj)
  have hl : (List.zipWith (· * ·) w ((x.drop (j * h)).take (N + 1))).length = N + 1 := by simp [hw]; omega
  have e1 : ∑ n ∈ range x.length, (if j * h ≤ n then at0 w (n - j * h) ^ 2 else 0) * at0 x n ^ 2 = ∑ n ∈ Ico (j * h) x.length, at0 w (n - j * h) ^ 2 * at0 x n ^ 2 := by
    simp only [ite_mul, zero_mul]
    rw [← sum_filter]
    refine sum_congr ?_ fun _ _ => rfl
    ext n
    simp only [mem_filter, mem_range, mem_Ico]
    omega
  rw [e1, sum_Ico_eq_sum_range, hl]
  have e2 : ∑ k ∈ range (N + 1), at0 (List.zipWith (· * ·) w ((x.drop (j * h)).take (N + 1))) k ^ 2 = ∑ k ∈ range (N + 1), at0 w (j * h + k - j * h) ^ 2 * at0 x (j * h + k) ^ 2 := by
    refine sum_congr rfl fun k _ => ?_
    rw [frame_value _ _ _ _ _ hw hj, mul_pow, Nat.add_sub_cancel_left]
  rw [e2]
  refine sum_subset (fun k hk => ?_) (fun k _ hk => ?_)
  · rw [mem_range] at hk ⊢; omega
  · rw [mem_range, not_lt] at hk
    rw [Nat.add_sub_cancel_left, at0_of_le w k (by omega), zero_pow two_ne_zero, zero_mul]

/-- C146: the energy of the frames (which PsdTransform adds up).  With Hann and an overlap of two thirds or more every sample has the same weight; with half overlap the weights lie between one half and one. -/
theorem C146_energy (m h : ℕ) (hh : 0 < h) (hm : 2 ≤ m) (w : Window) (hw : Window.new (some .hann) ((m * h : ℕ) : ℤ) false = .ok (some w)) (x : List ℝ) (J : ℕ) (hJ : 0 < J)
    (hx : (J - 1) * h + m * h + 1 ≤ x.length) (hin : ∀ n, n + h < m * h ∨ J * h < n → at0 x n = 0) :
    ∃ frames : ℕ → List ℝ, (∀ j < J, w.filter (some ((x.drop (j * h)).take (m * h + 1))) = .ok (frames j)) ∧
      frameEnergy frames J = ∑ n ∈ range x.length, (if 3 ≤ m then (3 / 8 : ℝ) * m else 1 - Real.sin (Real.pi * n / h) ^ 2 / 2) * at0 x n ^ 2 := by
  have hN0 : 0 < m * h := Nat.mul_pos (by omega) hh
  have hlen := (C39_window_symmetric .hann (m * h) false w hw).1
  obtain ⟨K, k1, -, hz, c1, -, -⟩ := cosine_form .hann (m * h) hN0 false w hw
  have hh' : (0 : ℝ) < h := by exact_mod_cast hh
  have hjx : ∀ j < J, j * h + m * h + 1 ≤ x.length := by
    intro j hj
    have := Nat.mul_le_mul_right h (show j ≤ J - 1 by omega)
    omega
  refine ⟨fun j => List.zipWith (· * ·) w.b ((x.drop (j * h)).take (m * h + 1)), fun j hj => ?_, ?_⟩
  · have := hjx j hj
    unfold Window.filter
    simp only
    rw [if_neg]
    rw [hlen]
    simp
    omega
  have hsq : ∀ t ≤ m * h, at0 w.b t ^ 2 = 3 / 8 - 1 / 2 * Real.cos (2 * Real.pi * t / (m * h : ℕ)) + 1 / 8 * Real.cos (4 * Real.pi * t / (m * h : ℕ)) := by
    intro t ht
    rw [c1 rfl t ht, k1 rfl, show 4 * Real.pi * t / (m * h : ℕ) = 2 * (2 * Real.pi * t / (m * h : ℕ)) by ring, Real.cos_two_mul]
    ring
  rw [energy_swap _ _ _ _ _ hlen hjx]
  refine sum_congr rfl fun n _ => ?_
  by_cases hout : n + h < m * h ∨ J * h < n
  · rw [hin n hout, zero_pow two_ne_zero, mul_zero, mul_zero]
  push Not at hout
  congr 1
  split
  · next h3 =>
    have := (overlap_core (m * h) m h rfl hh hm (3 / 8) (1 / 2) (1 / 8) (.inr h3) (fun t => at0 w.b t ^ 2) hsq (fun t ht => by rw [hz t ht]; norm_num) J n hout.1 hout.2).1 (.inl (by norm_num))
    rw [this]
    ring
  · next h3 =>
    obtain rfl : m = 2 := by omega
    have hper : ∀ j, j * h ≤ n → Real.cos (4 * Real.pi * ((n - j * h : ℕ) : ℝ) / (2 * h : ℕ)) = Real.cos (2 * Real.pi * n / h) := by
      intro j hj
      rw [Nat.cast_sub hj, ← Real.cos_sub_nat_mul_two_pi (2 * Real.pi * n / h) j]
      congr 1
      push_cast
      field_simp
      ring
    have core := (overlap_core (2 * h) 2 h rfl hh hm (3 / 8 + 1 / 8 * Real.cos (2 * Real.pi * n / h)) (1 / 2) 0 (.inl rfl)
      (fun t => if t ≤ 2 * h then 3 / 8 + 1 / 8 * Real.cos (2 * Real.pi * n / h) - 1 / 2 * Real.cos (2 * Real.pi * t / (2 * h : ℕ)) + 0 * Real.cos (4 * Real.pi * t / (2 * h : ℕ)) else 0)
      (fun t ht => by rw [if_pos ht]) (fun t ht => by rw [if_neg (by omega)]) J n hout.1 hout.2).1 (by
        by_cases hd : h ∣ n
        · left
          obtain ⟨c, rfl⟩ := hd
          have : 2 * Real.pi * ((h * c : ℕ) : ℝ) / h = c * (2 * Real.pi) := by push_cast; field_simp
          rw [this, Real.cos_nat_mul_two_pi]
          norm_num
        · exact .inr hd)
    have e : ∀ j ∈ range J, (if j * h ≤ n then at0 w.b (n - j * h) ^ 2 else 0) = if j * h ≤ n then (if n - j * h ≤ 2 * h then 3 / 8 + 1 / 8 * Real.cos (2 * Real.pi * n / h)
        - 1 / 2 * Real.cos (2 * Real.pi * ((n - j * h : ℕ) : ℝ) / (2 * h : ℕ)) + 0 * Real.cos (4 * Real.pi * ((n - j * h : ℕ) : ℝ) / (2 * h : ℕ)) else 0) else 0 := by
      intro j _
      split
      · next hj =>
        split
        · next ht =>
          rw [hsq _ ht, hper j hj]
          ring
        · next ht => rw [hz _ (by omega)]; norm_num
      · rfl
    rw [sum_congr rfl e]
    refine core.trans ?_
    rw [show 2 * Real.pi * (n : ℝ) / h = 2 * (Real.pi * n / h) by ring, Real.cos_two_mul, ← Real.sin_sq_add_cos_sq (Real.pi * n / h)]
    push_cast
    have := Real.sin_sq_add_cos_sq (Real.pi * n / h)
    nlinarith

/-- Concrete case: an impulse where the frames meet has weight one, an impulse half way between has weight one half. -/
example : 1 - Real.sin (Real.pi * (4 : ℕ) / (4 : ℕ)) ^ 2 / 2 = 1 ∧ 1 - Real.sin (Real.pi * (6 : ℕ) / (4 : ℕ)) ^ 2 / 2 = 1 / 2 := by
  constructor
  · norm_num
  · rw [show Real.pi * (6 : ℕ) / (4 : ℕ) = Real.pi / 2 + Real.pi by push_cast; ring, Real.sin_add_pi, Real.sin_pi_div_two]
    norm_num

end Verif.Props
