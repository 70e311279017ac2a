import Verif.Spec.Serial

namespace Verif

theorem b85Digit_get : ∀ d : ℕ, d < 85 → b85Digit (b85Alphabet.getD d 0) = some d := by decide +kernel

theorem b85Alphabet_length : b85Alphabet.length = 85 := by decide +kernel

theorem b85Acc_get {acc d : ℕ} {t : List ℕ} (hd : d < 85) : b85Acc acc (b85Alphabet.getD d 0 :: t) = b85Acc (acc * 85 + d) t := by
  rw [b85Acc, b85Digit_get d hd]

theorem tilde_get : tilde = b85Alphabet.getD 84 0 := by decide +kernel

theorem b85Chunk_eq (w : ℕ) : b85Chunk w = [b85Alphabet.getD (w / 614125 / 85) 0, b85Alphabet.getD (w / 614125 % 85) 0, b85Alphabet.getD (w / 85 % 7225 / 85) 0,
    b85Alphabet.getD (w / 85 % 7225 % 85) 0, b85Alphabet.getD (w % 85) 0] := rfl

theorem b85Hunk_get {a b c d e : ℕ} (ha : a < 85) (hb : b < 85) (hc : c < 85) (hd : d < 85) (he : e < 85) :
    b85Hunk [b85Alphabet.getD a 0, b85Alphabet.getD b 0, b85Alphabet.getD c 0, b85Alphabet.getD d 0, b85Alphabet.getD e 0]
      = packWord ((((a * 85 + b) * 85 + c) * 85 + d) * 85 + e) := by
  unfold b85Hunk
  rw [b85Acc_get ha, b85Acc_get hb, b85Acc_get hc, b85Acc_get hd, b85Acc_get he]
  simp [b85Acc]

theorem packWord_ok {acc : ℕ} (h : acc < 4294967296) : packWord acc = .ok [acc / 16777216, acc / 65536 % 256, acc / 256 % 256, acc % 256] := if_pos h

theorem b85decode_five (a b c d e : ℕ) (t : List ℕ) : b85decode (a :: b :: c :: d :: e :: t) =
    match b85Hunk [a, b, c, d, e] with
    | .error x => .error x
    | .ok l =>
      match b85decode t with
      | .error x => .error x
      | .ok r => .ok (l ++ r) := by
  rw [b85decode]
  rfl

theorem b85_round (l : List ℕ) (h : ∀ b ∈ l, b < 256) : b85decode (b85encode l) = .ok l := by
  induction l using b85encode.induct with
  | case1 => rfl
  | case2 a =>
    have ha : a < 256 := h a (by simp)
    rw [b85encode, b85Chunk_eq]
    generalize hw : word4 a 0 0 0 = w
    unfold word4 at hw
    have k1 : w / 614125 = w / 85 / 7225 := (Nat.div_div_eq_div_mul w 85 7225).symm
    simp only [List.take_succ_cons, List.take_zero]
    rw [b85decode, tilde_get, b85Hunk_get (by omega) (by omega) (by omega) (by omega) (by omega)]
    generalize hacc : (_ + _ : ℕ) = acc
    have hw' : w ≤ acc ∧ acc ≤ w + 614124 := by omega
    clear hacc k1
    rw [packWord_ok (by omega)]
    simp only [Except.map, List.take_succ_cons, List.take_zero]
    congr 2
    omega
  | case3 a b =>
    have ha : a < 256 := h a (by simp)
    have hb : b < 256 := h b (by simp)
    rw [b85encode, b85Chunk_eq]
    generalize hw : word4 a b 0 0 = w
    unfold word4 at hw
    have k1 : w / 614125 = w / 85 / 7225 := (Nat.div_div_eq_div_mul w 85 7225).symm
    simp only [List.take_succ_cons, List.take_zero]
    rw [b85decode, tilde_get, b85Hunk_get (by omega) (by omega) (by omega) (by omega) (by omega)]
    generalize hacc : (_ + _ : ℕ) = acc
    have hw' : w ≤ acc ∧ acc ≤ w + 7224 := by omega
    clear hacc k1
    rw [packWord_ok (by omega)]
    simp only [Except.map, List.take_succ_cons, List.take_zero]
    have q : acc / 65536 = 256 * a + b := by omega
    congr 2
    · omega
    congr 1
    omega
  | case4 a b c =>
    have ha : a < 256 := h a (by simp)
    have hb : b < 256 := h b (by simp)
    have hc : c < 256 := h c (by simp)
    rw [b85encode, b85Chunk_eq]
    generalize hw : word4 a b c 0 = w
    unfold word4 at hw
    have k1 : w / 614125 = w / 85 / 7225 := (Nat.div_div_eq_div_mul w 85 7225).symm
    simp only [List.take_succ_cons, List.take_zero]
    rw [b85decode, tilde_get, b85Hunk_get (by omega) (by omega) (by omega) (by omega) (by omega)]
    generalize hacc : (_ + _ : ℕ) = acc
    have hw' : w ≤ acc ∧ acc ≤ w + 84 := by omega
    clear hacc k1
    rw [packWord_ok (by omega)]
    simp only [Except.map, List.take_succ_cons, List.take_zero]
    have q : acc / 65536 = 256 * a + b := by omega
    have q' : acc / 256 = 65536 * a + 256 * b + c := by omega
    congr 2
    · omega
    congr 1
    · omega
    congr 1
    omega
  | case5 a b c d t ih =>
    have ha : a < 256 := h a (by simp)
    have hb : b < 256 := h b (by simp)
    have hc : c < 256 := h c (by simp)
    have hd : d < 256 := h d (by simp)
    rw [b85encode, b85Chunk_eq]
    generalize hw : word4 a b c d = w
    unfold word4 at hw
    have k1 : w / 614125 = w / 85 / 7225 := (Nat.div_div_eq_div_mul w 85 7225).symm
    simp only [List.cons_append, List.nil_append]
    rw [b85decode_five, b85Hunk_get (by omega) (by omega) (by omega) (by omega) (by omega)]
    generalize hacc : (_ + _ : ℕ) = acc
    have hw' : acc = w := by omega
    clear hacc k1
    subst hw'
    rw [packWord_ok (by omega), ih fun x hx => h x (by simp [hx])]
    simp only [List.cons_append, List.nil_append]
    have q : acc / 65536 = 256 * a + b := by omega
    have q' : acc / 256 = 65536 * a + 256 * b + c := by omega
    congr 2
    · omega
    congr 1
    · omega
    congr 1
    · omega
    congr 1
    omega

theorem getD_mem {d : ℕ} (h : d < 85) : b85Alphabet.getD d 0 ∈ b85Alphabet := by
  have key : ∀ d : ℕ, d < 85 → b85Alphabet.getD d 0 ∈ b85Alphabet := by decide +kernel
  exact key d h

theorem b85Chunk_mem {w : ℕ} (h : w < 4294967296) : ∀ c ∈ b85Chunk w, c ∈ b85Alphabet := by
  intro c hc
  rw [b85Chunk_eq] at hc
  simp only [List.mem_cons, List.not_mem_nil, or_false] at hc
  rcases hc with rfl | rfl | rfl | rfl | rfl <;> exact getD_mem (by omega)

theorem b85encode_mem (l : List ℕ) (h : ∀ b ∈ l, b < 256) : ∀ c ∈ b85encode l, c ∈ b85Alphabet := by
  induction l using b85encode.induct with
  | case1 => intro c hc; simp [b85encode] at hc
  | case2 a =>
    intro c hc
    have ha : a < 256 := h a (by simp)
    exact b85Chunk_mem (by unfold word4; omega) c (List.mem_of_mem_take hc)
  | case3 a b =>
    intro c hc
    have ha : a < 256 := h a (by simp)
    have hb : b < 256 := h b (by simp)
    exact b85Chunk_mem (by unfold word4; omega) c (List.mem_of_mem_take hc)
  | case4 a b c =>
    intro x hx
    have ha : a < 256 := h a (by simp)
    have hb : b < 256 := h b (by simp)
    have hc : c < 256 := h c (by simp)
    exact b85Chunk_mem (by unfold word4; omega) x (List.mem_of_mem_take hx)
  | case5 a b c d t ih =>
    intro x hx
    have ha : a < 256 := h a (by simp)
    have hb : b < 256 := h b (by simp)
    have hc : c < 256 := h c (by simp)
    have hd : d < 256 := h d (by simp)
    rw [b85encode, List.mem_append] at hx
    rcases hx with hx | hx
    · exact b85Chunk_mem (by unfold word4; omega) x hx
    · exact ih (fun y hy => h y (by simp [hy])) x hx

theorem b85encode_length (l : List ℕ) : (b85encode l).length = (5 * l.length + 3) / 4 := by
  induction l using b85encode.induct with
  | case1 => rfl
  | case2 a => simp [b85encode, b85Chunk_eq]
  | case3 a b => simp [b85encode, b85Chunk_eq]
  | case4 a b c => simp [b85encode, b85Chunk_eq]
  | case5 a b c d t ih =>
    rw [b85encode, List.length_append, ih]
    simp only [b85Chunk_eq, List.length_cons, List.length_nil]
    omega

theorem b85Digit_none {c : ℕ} (h : c ∉ b85Alphabet) : b85Digit c = none := by
  unfold b85Digit
  rw [List.idxOf?_eq_none_iff]
  exact h

theorem b85Acc_error {l : List ℕ} (h : ∃ c ∈ l, c ∉ b85Alphabet) (acc : ℕ) : b85Acc acc l = .error .valueError := by
  induction l generalizing acc with
  | nil => simp at h
  | cons c t ih =>
    rw [b85Acc]
    by_cases hc : c ∈ b85Alphabet
    · split
      · rfl
      · apply ih
        obtain ⟨d, hd, h⟩ := h
        rcases List.mem_cons.mp hd with rfl | hd
        · exact absurd hc h
        · exact ⟨d, hd, h⟩
    · rw [b85Digit_none hc]

theorem b85Hunk_error {l : List ℕ} (h : ∃ c ∈ l, c ∉ b85Alphabet) : b85Hunk l = .error .valueError := by
  unfold b85Hunk
  rw [b85Acc_error h]

theorem b85Acc_only (l : List ℕ) (acc : ℕ) (e : PyErr) (h : b85Acc acc l = .error e) : e = .valueError := by
  induction l generalizing acc with
  | nil => simp [b85Acc] at h
  | cons c t ih =>
    rw [b85Acc] at h
    split at h
    · exact (Except.error.inj h).symm
    · exact ih _ h

theorem b85Hunk_only {l : List ℕ} {e : PyErr} (h : b85Hunk l = .error e) : e = .valueError := by
  unfold b85Hunk at h
  split at h
  · rename_i x hx
    rw [← Except.error.inj h]
    exact b85Acc_only _ _ _ hx
  · unfold packWord at h
    split at h
    · exact absurd h (by simp)
    · exact (Except.error.inj h).symm

theorem b85decode_alien (l : List ℕ) (h : ∃ c ∈ l, c ∉ b85Alphabet) : b85decode l = .error .valueError := by
  induction l using b85decode.induct with
  | case1 => simp at h
  | case2 a => rw [b85decode, b85Hunk_error]; · rfl
               obtain ⟨c, hc, h⟩ := h; exact ⟨c, by simp at hc; simp [hc], h⟩
  | case3 a b => rw [b85decode, b85Hunk_error]; · rfl
                 obtain ⟨c, hc, h⟩ := h; exact ⟨c, by simp at hc; rcases hc with hc | hc <;> simp [hc], h⟩
  | case4 a b c => rw [b85decode, b85Hunk_error]; · rfl
                   obtain ⟨x, hc, h⟩ := h; exact ⟨x, by simp at hc; rcases hc with hc | hc | hc <;> simp [hc], h⟩
  | case5 a b c d => rw [b85decode, b85Hunk_error]; · rfl
                     obtain ⟨x, hc, h⟩ := h; exact ⟨x, by simp at hc; rcases hc with hc | hc | hc | hc <;> simp [hc], h⟩
  | case6 a b c d e t x hx =>
    rw [b85decode_five, hx]
    rw [b85Hunk_only hx]
  | case7 a b c d e t l hl x hx ih =>
    rw [b85decode_five, hl]
    simp only
    by_cases ht : ∃ c ∈ t, c ∉ b85Alphabet
    · rw [ih ht]
    · exfalso
      obtain ⟨c', hc, h'⟩ := h
      have : ∃ y ∈ [a, b, c, d, e], y ∉ b85Alphabet := by
        refine ⟨c', ?_, h'⟩
        by_contra hn
        apply ht
        refine ⟨c', ?_, h'⟩
        simp only [List.mem_cons, List.not_mem_nil, or_false] at hc hn
        tauto
      rw [b85Hunk_error this] at hl
      exact absurd hl (by simp)
  | case8 a b c d e t l hl r hr ih =>
    rw [b85decode_five, hl]
    simp only
    by_cases ht : ∃ c ∈ t, c ∉ b85Alphabet
    · rw [ih ht]
    · exfalso
      obtain ⟨c', hc, h'⟩ := h
      have : ∃ y ∈ [a, b, c, d, e], y ∉ b85Alphabet := by
        refine ⟨c', ?_, h'⟩
        by_contra hn
        apply ht
        refine ⟨c', ?_, h'⟩
        simp only [List.mem_cons, List.not_mem_nil, or_false] at hc hn
        tauto
      rw [b85Hunk_error this] at hl
      exact absurd hl (by simp)

theorem b85Alphabet_base : b85Alphabet = Spec.base85.map Char.toNat := by decide +kernel

theorem b85Alphabet_ascii : ∀ c ∈ b85Alphabet, c < 128 := by decide +kernel

theorem serial_encode {Obj : Type} {lib : SerialLib Obj} {encoding : Text} (ha : Spec.AsciiCompatible lib encoding) (he : encoding ≠ []) (hp : Spec.PickleSpec lib) (hg : Spec.GzipSpec lib)
    {time : ℕ} {x : Obj} {compress : Bool} {v : List ℕ} (hv : lib.dumps x = .ok v) :
    Serial.encode lib time x compress encoding = .ok ((b85encode (if compress then lib.compress time v else v)).map Char.ofNat) := by
  unfold Serial.encode
  rw [if_neg he, hv]
  simp only
  rw [ha.decode]
  intro c hc
  apply b85Alphabet_ascii
  refine b85encode_mem _ ?_ c hc
  cases compress
  · exact hp.bytes x v hv
  · exact hg.bytes time v (hp.bytes x v hv)

theorem hexByte_spec : ∀ b : ℕ, b < 256 → ∃ h l : ℕ, h < 16 ∧ l < 16 ∧ some (Nat.digitChar (b / 16)) = Spec.hexDigits[h]? ∧ some (Nat.digitChar (b % 16)) = Spec.hexDigits[l]? ∧ b = 16 * h + l := by
  have key : ∀ d : ℕ, d < 16 → some (Nat.digitChar d) = Spec.hexDigits[d]? := by decide +kernel
  intro b hb
  refine ⟨b / 16, b % 16, by omega, by omega, key _ (by omega), key _ (by omega), by omega⟩

theorem isHex_flatMap (d : List ℕ) (h : Spec.IsBytes d) : Spec.IsHex d (d.flatMap hexByte) := by
  induction d with
  | nil => exact ⟨rfl, fun i hi => absurd hi (Nat.not_lt_zero i)⟩
  | cons b d ih =>
    obtain ⟨h1, h2⟩ := ih fun x hx => h x (by simp [hx])
    have e : (b :: d).flatMap hexByte = Nat.digitChar (b / 16) :: Nat.digitChar (b % 16) :: d.flatMap hexByte := rfl
    refine ⟨?_, ?_⟩
    · rw [e]; simp only [List.length_cons]; omega
    · intro i hi
      rw [e]
      cases i with
      | zero =>
        obtain ⟨p, q, hp, hq, h3, h4, h5⟩ := hexByte_spec b (h b (by simp))
        exact ⟨p, q, hp, hq, h3, h4, by simp [h5]⟩
      | succ i =>
        obtain ⟨p, q, hp, hq, h3, h4, h5⟩ := h2 i (by simpa using hi)
        refine ⟨p, q, hp, hq, ?_, ?_, ?_⟩
        · rw [show 2 * (i + 1) = 2 * i + 1 + 1 by omega]; simpa using h3
        · rw [show 2 * (i + 1) + 1 = 2 * i + 1 + 1 + 1 by omega]; simpa using h4
        · simpa using h5

end Verif
