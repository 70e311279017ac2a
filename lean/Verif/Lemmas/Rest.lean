import Verif.Spec.Rest

namespace Verif

theorem toLower_toNat (c : Char) : c.toLower.toNat = if 65 ≤ c.toNat ∧ c.toNat ≤ 90 then c.toNat + 32 else c.toNat := by
  unfold Char.toLower
  simp only [Char.toNat, UInt32.le_iff_toNat_le, ge_iff_le]
  have e1 : 'A'.val.toNat = 65 := rfl
  have e2 : 'Z'.val.toNat = 90 := rfl
  simp only [e1, e2]
  split
  · rename_i h
    change (c.val + ('a'.val - 'A'.val)).toNat = _
    rw [UInt32.toNat_add]
    have e3 : ('a'.val - 'A'.val).toNat = 32 := rfl
    simp only [e3]
    omega
  · rfl

theorem toUpper_toNat (c : Char) : c.toUpper.toNat = if 97 ≤ c.toNat ∧ c.toNat ≤ 122 then c.toNat - 32 else c.toNat := by
  unfold Char.toUpper
  simp only [Char.toNat, UInt32.le_iff_toNat_le]
  have e1 : 'a'.val.toNat = 97 := rfl
  have e2 : 'z'.val.toNat = 122 := rfl
  simp only [e1, e2]
  split
  · rename_i h
    change (c.val + ('A'.val - 'a'.val)).toNat = _
    rw [UInt32.toNat_add]
    have e3 : ('A'.val - 'a'.val).toNat = 4294967264 := rfl
    simp only [e3]
    omega
  · rfl

theorem char_eq_iff (c d : Char) : c = d ↔ c.toNat = d.toNat := by
  constructor
  · rintro rfl; rfl
  · intro h
    exact Char.ext (UInt32.toNat_inj.mp h)

theorem isCased_iff (c : Char) : isCased c = true ↔ (97 ≤ c.toNat ∧ c.toNat ≤ 122) ∨ (65 ≤ c.toNat ∧ c.toNat ≤ 90) := by
  unfold isCased
  simp only [Bool.or_eq_true, Bool.and_eq_true, decide_eq_true_eq, Char.le_def, UInt32.le_iff_toNat_le, Char.toNat]
  rfl

/-- A lower-case letter. -/
def IsLow (d : Char) : Prop := 97 ≤ d.toNat ∧ d.toNat ≤ 122

theorem cased_of_low {c d : Char} (h : c.toLower = d) (hd : IsLow d) : isCased c = true := by
  rw [isCased_iff]
  rw [char_eq_iff, toLower_toNat] at h
  unfold IsLow at hd
  split at h <;> omega

theorem titleFrom_true {t l : Text} (hl : ∀ d ∈ l, IsLow d) : titleFrom true t = l ↔ t.map Char.toLower = l := by
  induction t generalizing l with
  | nil => rfl
  | cons c t ih =>
    cases l with
    | nil => simp [titleFrom]
    | cons d l =>
      simp only [titleFrom, List.map_cons, List.cons.injEq, if_true]
      constructor
      · rintro ⟨h, h'⟩
        rw [cased_of_low h (hl d (by simp))] at h'
        exact ⟨h, (ih (fun e he => hl e (by simp [he]))).mp h'⟩
      · rintro ⟨h, h'⟩
        rw [cased_of_low h (hl d (by simp))]
        exact ⟨h, (ih (fun e he => hl e (by simp [he]))).mpr h'⟩

theorem toUpper_iff {c d : Char} (hd : IsLow d) : c.toUpper = d.toUpper ↔ c.toLower = d := by
  rw [char_eq_iff, char_eq_iff, toUpper_toNat, toUpper_toNat, toLower_toNat]
  unfold IsLow at hd
  split <;> split <;> omega

theorem title_iff {t l : Text} {d : Char} (hd : IsLow d) (hl : ∀ e ∈ l, IsLow e) : title t = d.toUpper :: l ↔ t.map Char.toLower = d :: l := by
  unfold title
  cases t with
  | nil => simp [titleFrom]
  | cons c t =>
    simp only [titleFrom, List.map_cons, List.cons.injEq, Bool.false_eq_true, if_false]
    rw [toUpper_iff hd]
    constructor
    · rintro ⟨h, h'⟩
      rw [cased_of_low h hd] at h'
      exact ⟨h, (titleFrom_true hl).mp h'⟩
    · rintro ⟨h, h'⟩
      rw [cased_of_low h hd]
      exact ⟨h, (titleFrom_true hl).mpr h'⟩

theorem title_mem (t : Text) : title t ∈ restMethods ↔ t.map Char.toLower ∈ Spec.restNames := by
  have key : ∀ (d : Char) (l : Text), IsLow d → (∀ e ∈ l, IsLow e) → (title t = d.toUpper :: l ↔ t.map Char.toLower = d :: l) := fun d l => title_iff
  have h1 := key 'd' "elete".toList (by simp [IsLow]) (by simp [IsLow])
  have h2 := key 'g' "et".toList (by simp [IsLow]) (by simp [IsLow])
  have h3 := key 'h' "ead".toList (by simp [IsLow]) (by simp [IsLow])
  have h4 := key 'o' "ptions".toList (by simp [IsLow]) (by simp [IsLow])
  have h5 := key 'p' "atch".toList (by simp [IsLow]) (by simp [IsLow])
  have h6 := key 'p' "ost".toList (by simp [IsLow]) (by simp [IsLow])
  have h7 := key 'p' "ut".toList (by simp [IsLow]) (by simp [IsLow])
  simp only [restMethods, Spec.restNames, List.mem_cons, List.not_mem_nil, or_false]
  exact or_congr h1 (or_congr h2 (or_congr h3 (or_congr h4 (or_congr h5 (or_congr h6 h7)))))

theorem isMethod_iff (t : Text) : Spec.IsMethod t ↔ title t ∈ restMethods := by
  rw [title_mem]
  unfold Spec.IsMethod Spec.SameLetters
  have low : ∀ n ∈ Spec.restNames, n.map Char.toLower = n := by decide
  constructor
  · rintro ⟨n, hn, h⟩
    rw [h, low n hn]; exact hn
  · intro h
    exact ⟨_, h, (low _ h).symm⟩

theorem sameLetters_title (t : Text) (h : title t ∈ restMethods) : Spec.SameLetters (title t) t := by
  have low : ∀ n ∈ restMethods, title (n.map Char.toLower) = n ∧ title n = n := by decide
  unfold Spec.SameLetters
  have h2 := (title_mem t).mp h
  have h3 : ∀ n ∈ restMethods, ∀ m ∈ Spec.restNames, (n.map Char.toLower = m ∨ title m ≠ n) := by decide
  have h4 := h3 _ h _ h2
  rcases h4 with h4 | h4
  · exact h4
  · exfalso
    apply h4
    clear h3 h4 low
    simp only [Spec.restNames, List.mem_cons, List.not_mem_nil, or_false] at h2
    have key : ∀ (d : Char) (l : Text), IsLow d → (∀ e ∈ l, IsLow e) → (title t = d.toUpper :: l ↔ t.map Char.toLower = d :: l) := fun d l => title_iff
    rcases h2 with h2 | h2 | h2 | h2 | h2 | h2 | h2 <;> rw [h2]
    · exact ((key 'd' "elete".toList (by simp [IsLow]) (by simp [IsLow])).mpr h2).symm
    · exact ((key 'g' "et".toList (by simp [IsLow]) (by simp [IsLow])).mpr h2).symm
    · exact ((key 'h' "ead".toList (by simp [IsLow]) (by simp [IsLow])).mpr h2).symm
    · exact ((key 'o' "ptions".toList (by simp [IsLow]) (by simp [IsLow])).mpr h2).symm
    · exact ((key 'p' "atch".toList (by simp [IsLow]) (by simp [IsLow])).mpr h2).symm
    · exact ((key 'p' "ost".toList (by simp [IsLow]) (by simp [IsLow])).mpr h2).symm
    · exact ((key 'p' "ut".toList (by simp [IsLow]) (by simp [IsLow])).mpr h2).symm

theorem dropWhile_slash (s : Text) : ∃ a, s = List.replicate a '/' ++ s.dropWhile (· = '/') ∧ (s.dropWhile (· = '/')).head? ≠ some '/' := by
  induction s with
  | nil => exact ⟨0, by simp⟩
  | cons c s ih =>
    by_cases h : c = '/'
    · obtain ⟨a, h1, h2⟩ := ih
      refine ⟨a + 1, ?_, ?_⟩
      · rw [List.dropWhile_cons_of_pos (by simpa using h), List.replicate_succ, List.cons_append, ← h1, h]
      · rw [List.dropWhile_cons_of_pos (by simpa using h)]; exact h2
    · refine ⟨0, ?_, ?_⟩
      · rw [List.dropWhile_cons_of_neg (by simpa using h)]; simp
      · rw [List.dropWhile_cons_of_neg (by simpa using h)]; simpa using h

theorem isStripped_strip (s : Text) : Spec.IsStripped s (stripSlash s) := by
  obtain ⟨a, h1, h2⟩ := dropWhile_slash s
  obtain ⟨b, h3, h4⟩ := dropWhile_slash (s.dropWhile (· = '/')).reverse
  have h5 : s.dropWhile (· = '/') = stripSlash s ++ List.replicate b '/' := by
    have := congrArg List.reverse h3
    rw [List.reverse_reverse, List.reverse_append, List.reverse_replicate] at this
    exact this
  refine ⟨a, b, ?_, ?_, ?_⟩
  · rw [List.append_assoc, ← h5]; exact h1
  · intro h
    apply h2
    rw [h5]
    rw [List.head?_append, h]; rfl
  · unfold stripSlash
    rw [List.getLast?_reverse]
    exact h4

theorem dropWhile_replicate (a : ℕ) (t : Text) (h : t.head? ≠ some '/') : (List.replicate a '/' ++ t).dropWhile (· = '/') = t := by
  induction a with
  | zero =>
    cases t with
    | nil => rfl
    | cons c t =>
      have h : c ≠ '/' := by simpa using h
      simp [h]
  | succ a ih => rw [List.replicate_succ, List.cons_append, List.dropWhile_cons_of_pos (by simp)]; exact ih

theorem strip_of_isStripped {s t : Text} (h : Spec.IsStripped s t) : stripSlash s = t := by
  obtain ⟨a, b, h1, h2, h3⟩ := h
  unfold stripSlash
  by_cases ht : t = []
  · subst ht
    have : s = List.replicate (a + b) '/' ++ [] := by
      rw [h1, List.append_nil, List.append_nil, List.replicate_append_replicate]
    rw [this, dropWhile_replicate _ _ (by simp)]
    rfl
  · rw [h1, List.append_assoc, dropWhile_replicate]
    · rw [List.reverse_append, List.reverse_replicate, dropWhile_replicate, List.reverse_reverse]
      rw [List.head?_reverse]; exact h3
    · obtain ⟨c, t, rfl⟩ := List.exists_cons_of_ne_nil ht
      simpa using h2

theorem strip_pad (a b : ℕ) (t : Text) : stripSlash (List.replicate a '/' ++ t ++ List.replicate b '/') = stripSlash t := by
  apply strip_of_isStripped
  obtain ⟨c, d, h1, h2, h3⟩ := isStripped_strip t
  refine ⟨a + c, d + b, ?_, h2, h3⟩
  conv_lhs => rw [h1]
  rw [← List.replicate_append_replicate, ← List.replicate_append_replicate]
  simp only [List.append_assoc]

theorem strip_strip (t : Text) : stripSlash (stripSlash t) = stripSlash t :=
  strip_of_isStripped ⟨0, 0, by simp, (isStripped_strip t).choose_spec.choose_spec.2⟩

theorem setUrl_some (c : RestClient) (u : Text) : (c.setUrl (some u)).url = some (stripSlash u) := by
  unfold RestClient.setUrl
  simp only
  split
  · rename_i h; rw [h]; rfl
  · rfl

end Verif
