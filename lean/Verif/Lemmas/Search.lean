import Verif.Model.Search
import Verif.Spec.Search
import Mathlib.Tactic.Linarith
import Mathlib.Tactic.NormNum

namespace Verif

open Spec

variable {α : Type*}

theorem search.eps_pos : 0 < search.eps := by unfold search.eps; positivity

/-- What a search does, in terms of the scale factors: either it returns the first best of the candidates tried, stopping early only at
a candidate below the tolerance, or a candidate raises. -/
theorem search.loop_spec (cand : ℝ → Res α) (dev : α → ℝ) (D : ℝ → ℝ) (hD : ∀ x v, cand x = .ok v → D x = dev v) (rate : ℝ) (s : ℕ → ℝ)
    (hs : ∀ k, s (k + 1) = max (s k + rate * D (s k)) search.eps) (total : ℕ) (htot : 0 < total) :
    ∀ fuel m best, fuel + m = total →
      (m = 0 → best = none) →
      (0 < m → ∃ k v, FirstBest D s m k ∧ cand (s k) = .ok v ∧ best = some (v, |D (s k)|)) →
      (∀ k < m, 10e3 * search.eps ≤ |D (s k)|) → (∀ k < m, ∃ v, cand (s k) = .ok v) →
      (∃ n k v, 1 ≤ n ∧ n ≤ total ∧ (n = total ∨ |D (s (n - 1))| < 10e3 * search.eps) ∧
        (∀ j, j + 1 < n → 10e3 * search.eps ≤ |D (s j)|) ∧ (∀ j < n, ∃ v, cand (s j) = .ok v) ∧
        FirstBest D s n k ∧ cand (s k) = .ok v ∧
        search.loop cand dev rate fuel (s m) best = .ok (some v)) ∨
      (∃ n e, n < total ∧ (∀ j < n, 10e3 * search.eps ≤ |D (s j)|) ∧ (∀ j < n, ∃ v, cand (s j) = .ok v) ∧
        cand (s n) = .error e ∧ search.loop cand dev rate fuel (s m) best = .error e) := by
  intro fuel
  induction fuel with
  | zero =>
    intro m best hm h0 h1 htol hok
    obtain ⟨k, v, hk, hv, rfl⟩ := h1 (by omega)
    exact Or.inl ⟨m, k, v, by omega, by omega, Or.inl (by omega), fun j hj => htol j (by omega), hok, hk, hv, rfl⟩
  | succ fuel ih =>
    intro m best hm h0 h1 htol hok
    unfold search.loop
    cases hc : cand (s m) with
    | error e => exact Or.inr ⟨m, e, by omega, htol, hok, hc, by simp only⟩
    | ok v =>
      have hDm : D (s m) = dev v := hD _ _ hc
      have hok' : ∀ k < m + 1, ∃ v, cand (s k) = .ok v := fun k hk => by
        rcases Nat.lt_succ_iff_lt_or_eq.mp hk with h | rfl
        · exact hok k h
        · exact ⟨v, hc⟩
      have hnext : ∀ best', (∃ k v, FirstBest D s (m + 1) k ∧ cand (s k) = .ok v ∧ best' = some (v, |D (s k)|)) →
          10e3 * search.eps ≤ |D (s m)| → _ := fun best' hb ht =>
        ih (m + 1) best' (by omega) (by omega) (fun _ => hb)
          (fun k hk => by
            rcases Nat.lt_succ_iff_lt_or_eq.mp hk with h | rfl
            · exact htol k h
            · exact ht) hok'
      rw [hs m] at hnext
      simp only
      rw [← hDm]
      have hret : |D (s m)| < 10e3 * search.eps → (∃ n k v', 1 ≤ n ∧ n ≤ total ∧ (n = total ∨ |D (s (n - 1))| < 10e3 * search.eps) ∧
          (∀ j, j + 1 < n → 10e3 * search.eps ≤ |D (s j)|) ∧ (∀ j < n, ∃ v, cand (s j) = .ok v) ∧
          FirstBest D s n k ∧ cand (s k) = .ok v' ∧ (Except.ok (some v) : Res (Option α)) = .ok (some v')) := by
        intro hlt
        refine ⟨m + 1, m, v, by omega, by omega, Or.inr (by simpa using hlt), fun j hj => htol j (by omega), hok', ?_, hc, rfl⟩
        refine ⟨by omega, ?_⟩
        intro j hj
        rcases Nat.lt_succ_iff_lt_or_eq.mp hj with h | rfl
        · have := htol j h
          exact ⟨by linarith, fun _ => by linarith⟩
        · exact ⟨le_rfl, fun h => absurd h (lt_irrefl _)⟩
      rcases Nat.eq_zero_or_pos m with hm0 | hmp
      · rw [h0 hm0]
        simp only
        split
        · rename_i hlt; exact Or.inl (hret hlt)
        · rename_i hge
          apply hnext
          · refine ⟨m, v, ⟨by omega, ?_⟩, hc, rfl⟩
            intro j hj
            have : j = m := by omega
            subst this
            exact ⟨le_rfl, fun h => absurd h (lt_irrefl _)⟩
          · linarith
      · obtain ⟨k, w, hk, hw, rfl⟩ := h1 hmp
        simp only
        split
        · rename_i himp
          split
          · rename_i hlt; exact Or.inl (hret hlt)
          · rename_i hge
            apply hnext
            · refine ⟨m, v, ⟨by omega, ?_⟩, hc, rfl⟩
              intro j hj
              rcases Nat.lt_succ_iff_lt_or_eq.mp hj with h | rfl
              · have := (hk.2 j h).1
                exact ⟨by linarith, fun _ => by linarith⟩
              · exact ⟨le_rfl, fun h => absurd h (lt_irrefl _)⟩
            · linarith
        · rename_i himp
          apply hnext
          · refine ⟨k, w, ⟨by have := hk.1; omega, ?_⟩, hw, rfl⟩
            intro j hj
            rcases Nat.lt_succ_iff_lt_or_eq.mp hj with h | rfl
            · exact hk.2 j h
            · exact ⟨by linarith, fun h => absurd h (by have := hk.1; omega)⟩
          · have := htol k hk.1
            linarith

/-- The scale factors of a search exist; this is the sequence. -/
noncomputable def search.scales (dev : ℝ → ℝ) (rate : ℝ) : ℕ → ℝ
  | 0 => 1
  | k + 1 => max (search.scales dev rate k + rate * dev (search.scales dev rate k)) search.eps

theorem search.scales_pos (D : ℝ → ℝ) (rate : ℝ) (s : ℕ → ℝ) (h : Scales D rate search.eps s) (k : ℕ) : 0 < s k := by
  cases k with
  | zero => rw [h.1]; norm_num
  | succ k => rw [h.2 k]; exact lt_max_of_lt_right search.eps_pos

theorem search.run_spec (cand : ℝ → Res α) (dev : α → ℝ) (D : ℝ → ℝ) (hD : ∀ x v, cand x = .ok v → D x = dev v) (rate : ℝ) (s : ℕ → ℝ)
    (hs : Scales D rate search.eps s) :
      (∃ n k v, 1 ≤ n ∧ n ≤ 500 ∧ (n = 500 ∨ |D (s (n - 1))| < 10e3 * search.eps) ∧
        (∀ j, j + 1 < n → 10e3 * search.eps ≤ |D (s j)|) ∧ (∀ j < n, ∃ v, cand (s j) = .ok v) ∧
        FirstBest D s n k ∧ cand (s k) = .ok v ∧ search.run cand dev rate = .ok (some v)) ∨
      (∃ n e, n < 500 ∧ (∀ j < n, 10e3 * search.eps ≤ |D (s j)|) ∧ (∀ j < n, ∃ v, cand (s j) = .ok v) ∧
        cand (s n) = .error e ∧ search.run cand dev rate = .error e) := by
  have := search.loop_spec cand dev D hD rate s hs.2 500 (by omega) 500 0 none (by omega) (fun _ => rfl) (by omega) (by omega) (by omega)
  rw [hs.1] at this
  exact this

/-- A search result is a candidate at a positive scale. -/
theorem search.run_result (cand : ℝ → Res α) (dev : α → ℝ) (rate : ℝ) :
    (∃ x v, 0 < x ∧ cand x = .ok v ∧ search.run cand dev rate = .ok (some v)) ∨
    (∃ x e, 0 < x ∧ cand x = .error e ∧ search.run cand dev rate = .error e) := by
  classical
  let D : ℝ → ℝ := fun x => match cand x with | .ok v => dev v | .error _ => 0
  have hD : ∀ x v, cand x = .ok v → D x = dev v := by
    intro x v h; simp only [D, h]
  have hs : Scales D rate search.eps (search.scales D rate) := ⟨rfl, fun _ => rfl⟩
  rcases search.run_spec cand dev D hD rate _ hs with ⟨n, k, v, -, -, -, -, -, -, h1, h2⟩ | ⟨n, e, -, -, -, h1, h2⟩
  · exact Or.inl ⟨_, v, search.scales_pos D rate _ hs k, h1, h2⟩
  · exact Or.inr ⟨_, e, search.scales_pos D rate _ hs n, h1, h2⟩

end Verif
