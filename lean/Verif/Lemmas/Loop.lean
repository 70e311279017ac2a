import Verif.Model.Fir

/-
Facts about the sample loop and about calling a filter chunk by chunk.
-/

namespace Verif

variable {σ ι ο : Type _}

/-- Sequential composition of two runs. -/
def thenRun (r : Res (List ο) × σ) (k : σ → Res (List ο) × σ) : Res (List ο) × σ :=
  match r with
  | (.error e, st) => (.error e, st)
  | (.ok ys, st) =>
    match k st with
    | (.error e, st') => (.error e, st')
    | (.ok zs, st') => (.ok (ys ++ zs), st')

theorem runLoop_append (step : σ → ι → Res ο × σ) (st : σ) (xs ys : List ι) :
    runLoop step st (xs ++ ys) = thenRun (runLoop step st xs) (fun st' => runLoop step st' ys) := by
  induction xs generalizing st with
  | nil =>
    simp only [List.nil_append, runLoop, thenRun]
    rcases runLoop step st ys with ⟨r, st'⟩
    cases r <;> simp
  | cons x xs ih =>
    simp only [List.cons_append, runLoop, ih]
    rcases h : step st x with ⟨r, st'⟩
    cases r with
    | error e => simp [thenRun]
    | ok y =>
      simp only
      rcases h2 : runLoop step st' xs with ⟨r2, st2⟩
      cases r2 with
      | error e => simp [thenRun]
      | ok zs =>
        simp only [thenRun]
        rcases h3 : runLoop step st2 ys with ⟨r3, st3⟩
        cases r3 <;> simp

theorem callChunks_eq_runLoop (step : σ → ι → Res ο × σ) (filt : σ → List ι → Res (List ο) × σ)
    (hf : ∀ st x, x ≠ [] → filt st x = runLoop step st x)
    (st : σ) (cs : List (List ι)) (hne : ∀ c ∈ cs, c ≠ []) :
    callChunks filt st cs = runLoop step st cs.flatten := by
  induction cs generalizing st with
  | nil => simp [callChunks, runLoop]
  | cons c cs ih =>
    have hc : c ≠ [] := hne c (by simp)
    simp only [List.flatten_cons, runLoop_append, callChunks, hf st c hc]
    rcases h : runLoop step st c with ⟨r, st'⟩
    cases r with
    | error e => simp [thenRun]
    | ok ys =>
      simp only [thenRun, ih st' (fun d hd => hne d (by simp [hd]))]
      rcases runLoop step st' cs.flatten with ⟨_ | _, _⟩ <;> rfl

/-- Chunked calls equal one call on the whole signal. -/
theorem callChunks_eq_filter (step : σ → ι → Res ο × σ) (filt : σ → List ι → Res (List ο) × σ)
    (hf : ∀ st x, x ≠ [] → filt st x = runLoop step st x)
    (st : σ) (cs : List (List ι)) (hcs : cs ≠ []) (hne : ∀ c ∈ cs, c ≠ []) :
    callChunks filt st cs = filt st cs.flatten := by
  have hfl : cs.flatten ≠ [] := by
    cases cs with
    | nil => exact absurd rfl hcs
    | cons c cs => simp [hne c (by simp)]
  rw [hf st _ hfl, callChunks_eq_runLoop step filt hf st cs hne]

theorem runLoop_ok_length (step : σ → ι → Res ο × σ) (st st' : σ) (xs : List ι) (ys : List ο)
    (h : runLoop step st xs = (.ok ys, st')) : ys.length = xs.length := by
  induction xs generalizing st ys with
  | nil => simp [runLoop] at h; simp [h.1.symm]
  | cons x xs ih =>
    simp only [runLoop] at h
    rcases h1 : step st x with ⟨r, st1⟩
    rw [h1] at h
    cases r with
    | error e => simp at h
    | ok y =>
      simp only at h
      rcases h2 : runLoop step st1 xs with ⟨r2, st2⟩
      rw [h2] at h
      cases r2 with
      | error e => simp at h
      | ok zs =>
        simp only [Prod.mk.injEq, Except.ok.injEq] at h
        have := ih st1 zs (by rw [h2, h.2])
        simp [← h.1, this]

/-- A loop whose step never raises on states satisfying an invariant. -/
theorem runLoop_inv (step : σ → ι → Res ο × σ) (I : σ → Prop)
    (hstep : ∀ st x, I st → (∃ y, (step st x).1 = .ok y) ∧ I (step st x).2)
    (st : σ) (hI : I st) (xs : List ι) :
    (∃ ys, (runLoop step st xs).1 = .ok ys) ∧ I (runLoop step st xs).2 := by
  induction xs generalizing st with
  | nil => simp [runLoop, hI]
  | cons x xs ih =>
    obtain ⟨⟨y, hy⟩, hI'⟩ := hstep st x hI
    obtain ⟨⟨ys, hys⟩, hI''⟩ := ih _ hI'
    rcases h1 : step st x with ⟨r, st1⟩
    rw [h1] at hy hI' hys hI''
    simp only at hy; subst hy
    rcases h2 : runLoop step st1 xs with ⟨r2, st2⟩
    rw [h2] at hys hI''
    simp only at hys; subst hys
    simp only [runLoop, h1, h2]
    exact ⟨⟨_, rfl⟩, hI''⟩

theorem runLoop_cons_ok (step : σ → ι → Res ο × σ) (st st1 : σ) (x : ι) (xs : List ι) (y : ο)
    (h : step st x = (.ok y, st1)) :
    runLoop step st (x :: xs) = thenRun (.ok [y], st1) (fun s => runLoop step s xs) := by
  simp only [runLoop, h, thenRun]
  rcases runLoop step st1 xs with ⟨_ | _, _⟩ <;> rfl

end Verif
