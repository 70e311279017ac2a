import Verif.Props.Serial
import Mathlib.Algebra.BigOperators.Group.Finset.Basic
import Mathlib.Tactic.IntervalCases
import Mathlib.Tactic.NormNum
import Mathlib.Tactic.Ring

/-
Property C127: base 85 texts which were not produced by Serial.encode (diamondback/commons/serial.py).
-/

namespace Verif.Props

open Verif Verif.Spec

/-- The bytes of a text given by its digits, positions in the documented alphabet. -/
def textOf (ds : List ℕ) : List ℕ := ds.map fun d => ((base85.map Char.toNat).getD d 0)

/-- The value of the k-th group of five digits, the greatest digit where the text has ended. -/
def groupValue (ds : List ℕ) (k : ℕ) : ℕ := ∑ i ∈ Finset.range 5, ds.getD (5 * k + i) 84 * 85 ^ (4 - i)

private theorem gv_zero (ds : List ℕ) : groupValue ds 0 =
    (((ds.getD 0 84 * 85 + ds.getD 1 84) * 85 + ds.getD 2 84) * 85 + ds.getD 3 84) * 85 + ds.getD 4 84 := by
  simp only [groupValue, Finset.sum_range_succ, Finset.sum_range_zero]
  norm_num
  ring

private theorem gv_succ (a b c d e : ℕ) (t : List ℕ) (k : ℕ) : groupValue (a :: b :: c :: d :: e :: t) (k + 1) = groupValue t k := by
  unfold groupValue
  refine Finset.sum_congr rfl fun i _ => ?_
  have : 5 * (k + 1) + i = 5 * k + i + 1 + 1 + 1 + 1 + 1 := by ring
  rw [this]
  simp only [List.getD_cons_succ]

private theorem hunk (a b c d e : ℕ) (ha : a < 85) (hb : b < 85) (hc : c < 85) (hd : d < 85) (he : e < 85) :
    b85Hunk [b85Alphabet.getD a 0, b85Alphabet.getD b 0, b85Alphabet.getD c 0, b85Alphabet.getD d 0, b85Alphabet.getD e 0] =
      packWord ((((a * 85 + b) * 85 + c) * 85 + d) * 85 + e) := by
  rw [b85Hunk_get ha hb hc hd he]

/-- C127, for the first group. -/
private theorem packed (w : ℕ) (n : ℕ) (hn : n ≤ 4) :
    (w < 2 ^ 32 → ∃ m, (packWord w).map (·.take n) = .ok m ∧ m.length = n ∧ ∀ i, i < n → m[i]? = some (w / 256 ^ (3 - i) % 256)) ∧
    (¬ w < 2 ^ 32 → (packWord w).map (·.take n) = .error .valueError) := by
  constructor
  · intro h
    have h' : w < 4294967296 := by simpa using h
    refine ⟨[w / 16777216, w / 65536 % 256, w / 256 % 256, w % 256].take n, by rw [packWord_ok h']; rfl, by simp [hn], ?_⟩
    intro i hi
    rw [List.getElem?_take_of_lt hi]
    have h4 : i < 4 := by omega
    interval_cases i
    · simp; omega
    · simp
    · simp
    · simp
  · intro h
    have h' : ¬ w < 4294967296 := by simpa using h
    unfold packWord
    rw [if_neg h']
    rfl

private theorem textOf_cons (d : ℕ) (t : List ℕ) : textOf (d :: t) = b85Alphabet.getD d 0 :: textOf t := by
  unfold textOf
  rw [List.map_cons, ← b85Alphabet_base]

private theorem dec1 (a : ℕ) : b85decode [a] = (b85Hunk [a, tilde, tilde, tilde, tilde]).map (·.take 0) := by rw [b85decode]
private theorem dec2 (a b : ℕ) : b85decode [a, b] = (b85Hunk [a, b, tilde, tilde, tilde]).map (·.take 1) := by rw [b85decode]
private theorem dec3 (a b c : ℕ) : b85decode [a, b, c] = (b85Hunk [a, b, c, tilde, tilde]).map (·.take 2) := by rw [b85decode]
private theorem dec4 (a b c d : ℕ) : b85decode [a, b, c, d] = (b85Hunk [a, b, c, d, tilde]).map (·.take 3) := by rw [b85decode]
private theorem textOf_nil : textOf [] = [] := rfl

private theorem short : ∀ (ds : List ℕ) (w n : ℕ), 0 < ds.length → ds.length < 5 → ds.length = n + 1 → w = groupValue ds 0 →
    b85decode (textOf ds) = (packWord w).map (·.take n) →
    ((∀ k, 5 * k < ds.length → groupValue ds k < 2 ^ 32) →
      ∃ m, b85decode (textOf ds) = .ok m ∧ m.length = 4 * (ds.length / 5) + (ds.length % 5 - 1) ∧
        ∀ i, i < m.length → m[i]? = some (groupValue ds (i / 4) / 256 ^ (3 - i % 4) % 256)) ∧
    (¬ (∀ k, 5 * k < ds.length → groupValue ds k < 2 ^ 32) → b85decode (textOf ds) = .error .valueError) := by
  intro ds w n h0 h5 hn hw hd
  have hiff : (∀ k, 5 * k < ds.length → groupValue ds k < 2 ^ 32) ↔ w < 2 ^ 32 := by
    rw [hw]
    refine ⟨fun H => H 0 h0, fun H k hk => ?_⟩
    obtain rfl : k = 0 := by omega
    exact H
  obtain ⟨p1, p2⟩ := packed w n (by omega)
  rw [hiff, hd]
  refine ⟨fun H => ?_, p2⟩
  obtain ⟨m, e, hl, hm⟩ := p1 H
  refine ⟨m, e, by omega, fun i hi => ?_⟩
  have h1 : i / 4 = 0 := by omega
  have h2 : i % 4 = i := by omega
  rw [h1, h2, ← hw]
  exact hm i (by omega)

/-- The bytes of a group followed by those of the rest of the text. -/
private def joined (a b : Res (List ℕ)) : Res (List ℕ) :=
  match a with
  | .error x => .error x
  | .ok l =>
    match b with
    | .error x => .error x
    | .ok r => .ok (l ++ r)

private theorem five (a b c d e : ℕ) (t : List ℕ) : b85decode (a :: b :: c :: d :: e :: t) = joined (b85Hunk [a, b, c, d, e]) (b85decode t) := by
  rw [b85decode_five]
  unfold joined
  rcases b85Hunk [a, b, c, d, e] with x | l
  · rfl
  · rcases b85decode t with x | r <;> rfl

private theorem packed4 (w : ℕ) :
    (w < 2 ^ 32 → ∃ m, packWord w = .ok m ∧ m.length = 4 ∧ ∀ i, i < 4 → m[i]? = some (w / 256 ^ (3 - i) % 256)) ∧ (¬ w < 2 ^ 32 → packWord w = .error .valueError) := by
  obtain ⟨p1, p2⟩ := packed w 4 le_rfl
  constructor
  · intro h
    obtain ⟨m, e, hl, hm⟩ := p1 h
    have h' : w < 4294967296 := by simpa using h
    rw [packWord_ok h'] at e ⊢
    have hm' : [w / 16777216, w / 65536 % 256, w / 256 % 256, w % 256] = m := by
      have := Except.ok.inj e
      simpa only [List.take_succ_cons, List.take_nil, List.take_zero] using this
    exact ⟨m, by rw [hm'], hl, hm⟩
  · intro h
    have h' : ¬ w < 4294967296 := by simpa using h
    unfold packWord
    rw [if_neg h']

/-- C127.  A text of the documented characters, of any length, is decoded to one byte less than each group has digits, the leading bytes of the value of the
group written in base 256, when every group has a value below 2^32; otherwise ValueError is raised. -/
theorem C127_decode (ds : List ℕ) (h : ∀ d ∈ ds, d < 85) :
    ((∀ k, 5 * k < ds.length → groupValue ds k < 2 ^ 32) →
      ∃ m, b85decode (textOf ds) = .ok m ∧ m.length = 4 * (ds.length / 5) + (ds.length % 5 - 1) ∧
        ∀ i, i < m.length → m[i]? = some (groupValue ds (i / 4) / 256 ^ (3 - i % 4) % 256)) ∧
    (¬ (∀ k, 5 * k < ds.length → groupValue ds k < 2 ^ 32) → b85decode (textOf ds) = .error .valueError) := by
  match ds, h with
  | [], _ => exact ⟨fun _ => ⟨[], rfl, rfl, fun i hi => absurd hi (Nat.not_lt_zero i)⟩, fun hn => absurd (fun k hk => absurd hk (Nat.not_lt_zero _)) hn⟩
  | [a], h =>
    refine short [a] ((((a * 85 + 84) * 85 + 84) * 85 + 84) * 85 + 84) 0 (by simp) (by simp) rfl (by rw [gv_zero]; simp only [List.getD_cons_zero, List.getD_cons_succ, List.getD_nil]) ?_
    have ha := h a (by simp)
    rw [textOf_cons, textOf_nil, dec1]
    rw [tilde_get, hunk a 84 84 84 84 ha (by norm_num) (by norm_num) (by norm_num) (by norm_num)]
  | [a, b], h =>
    refine short [a, b] ((((a * 85 + b) * 85 + 84) * 85 + 84) * 85 + 84) 1 (by simp) (by simp) rfl (by rw [gv_zero]; simp only [List.getD_cons_zero, List.getD_cons_succ, List.getD_nil]) ?_
    rw [textOf_cons, textOf_cons, textOf_nil, dec2]
    rw [tilde_get, hunk a b 84 84 84 (h a (by simp)) (h b (by simp)) (by norm_num) (by norm_num) (by norm_num)]
  | [a, b, c], h =>
    refine short [a, b, c] ((((a * 85 + b) * 85 + c) * 85 + 84) * 85 + 84) 2 (by simp) (by simp) rfl (by rw [gv_zero]; simp only [List.getD_cons_zero, List.getD_cons_succ, List.getD_nil]) ?_
    rw [textOf_cons, textOf_cons, textOf_cons, textOf_nil, dec3]
    rw [tilde_get, hunk a b c 84 84 (h a (by simp)) (h b (by simp)) (h c (by simp)) (by norm_num) (by norm_num)]
  | [a, b, c, d], h =>
    refine short [a, b, c, d] ((((a * 85 + b) * 85 + c) * 85 + d) * 85 + 84) 3 (by simp) (by simp) rfl (by rw [gv_zero]; simp only [List.getD_cons_zero, List.getD_cons_succ, List.getD_nil]) ?_
    rw [textOf_cons, textOf_cons, textOf_cons, textOf_cons, textOf_nil, dec4]
    rw [tilde_get, hunk a b c d 84 (h a (by simp)) (h b (by simp)) (h c (by simp)) (h d (by simp)) (by norm_num)]
  | a :: b :: c :: d :: e :: t, h =>
    obtain ⟨i1, i2⟩ := C127_decode t (fun x hx => h x (by simp [hx]))
    have g0 := gv_zero (a :: b :: c :: d :: e :: t)
    simp only [List.getD_cons_zero, List.getD_cons_succ] at g0
    have hd : b85decode (textOf (a :: b :: c :: d :: e :: t)) = joined (packWord (groupValue (a :: b :: c :: d :: e :: t) 0)) (b85decode (textOf t)) := by
      rw [textOf_cons, textOf_cons, textOf_cons, textOf_cons, textOf_cons, five,
        hunk a b c d e (h a (by simp)) (h b (by simp)) (h c (by simp)) (h d (by simp)) (h e (by simp)), g0]
    have hiff : (∀ k, 5 * k < (a :: b :: c :: d :: e :: t).length → groupValue (a :: b :: c :: d :: e :: t) k < 2 ^ 32) ↔
        groupValue (a :: b :: c :: d :: e :: t) 0 < 2 ^ 32 ∧ ∀ k, 5 * k < t.length → groupValue t k < 2 ^ 32 := by
      simp only [List.length_cons]
      constructor
      · intro H
        refine ⟨H 0 (by omega), fun k hk => ?_⟩
        rw [← gv_succ a b c d e t k]
        exact H (k + 1) (by omega)
      · rintro ⟨H0, H⟩ k hk
        cases k with
        | zero => exact H0
        | succ k => rw [gv_succ]; exact H k (by omega)
    obtain ⟨p1, p2⟩ := packed4 (groupValue (a :: b :: c :: d :: e :: t) 0)
    have hlen : (a :: b :: c :: d :: e :: t).length = t.length + 5 := by simp
    have hs : ∀ k, groupValue (a :: b :: c :: d :: e :: t) (k + 1) = groupValue t k := gv_succ a b c d e t
    rw [hiff, hd, hlen]
    generalize groupValue (a :: b :: c :: d :: e :: t) = gv at p1 p2 hs ⊢
    constructor
    · rintro ⟨H0, H⟩
      obtain ⟨r, e1, l1, r1⟩ := i1 H
      obtain ⟨m, e2, l2, r2⟩ := p1 H0
      rw [e1, e2]
      refine ⟨m ++ r, rfl, ?_, ?_⟩
      · rw [List.length_append, l1, l2]
        omega
      · intro i hi
        by_cases h4 : i < 4
        · have k1 : i / 4 = 0 := by omega
          have k2 : i % 4 = i := by omega
          rw [List.getElem?_append_left (by omega), k1, k2]
          exact r2 i h4
        · obtain ⟨j, rfl⟩ : ∃ j, i = j + 4 := ⟨i - 4, by omega⟩
          have k1 : (j + 4) / 4 = j / 4 + 1 := by omega
          have k2 : (j + 4) % 4 = j % 4 := by omega
          rw [List.length_append] at hi
          have k3 : j + 4 - m.length = j := by omega
          rw [List.getElem?_append_right (by omega), k1, k2, hs, k3]
          exact r1 j (by omega)
    · intro H
      by_cases H0 : gv 0 < 2 ^ 32
      · obtain ⟨m, e2, -⟩ := p1 H0
        rw [i2 (fun H' => H ⟨H0, H'⟩), e2]
        rfl
      · rw [p2 H0]
        rfl
termination_by ds.length

/-- Digits of "hello", a text which is too large, and one which ends early. -/
example : b85decode (textOf [33, 46, 84, 0, 81, 35, 57]) = .ok ("hello".toList.map Char.toNat) ∧ b85decode (textOf [84, 84, 84, 84, 84]) = .error .valueError ∧
    b85decode (textOf [81, 81]) = .ok [255] := by decide +kernel

/-- C127.  A single digit after complete groups adds nothing: the text with it, when it is not one of the last three, is decoded as the text without it. -/
theorem C127_dangling (ds : List ℕ) (h : ∀ d ∈ ds, d < 85) (h5 : 5 ∣ ds.length) (x : ℕ) (hx : x < 85) :
    b85decode (textOf (ds ++ [x])) = if x < 82 then b85decode (textOf ds) else .error .valueError := by
  match ds, h with
  | [], _ =>
    have : ∀ x : ℕ, x < 85 → b85decode (textOf ([] ++ [x])) = if x < 82 then b85decode (textOf []) else .error .valueError := by decide +kernel
    exact this x hx
  | [a], _ => simp at h5
  | [a, b], _ => simp at h5
  | [a, b, c], _ => simp at h5
  | [a, b, c, d], _ => simp at h5
  | a :: b :: c :: d :: e :: t, h =>
    have ih := C127_dangling t (fun y hy => h y (by simp [hy])) (by simp only [List.length_cons] at h5; omega) x hx
    simp only [List.cons_append]
    simp only [textOf_cons]
    rw [five, five, ih]
    by_cases h82 : x < 82
    · rw [if_pos h82, if_pos h82]
    · rw [if_neg h82, if_neg h82]
      rcases hh : b85Hunk [b85Alphabet.getD a 0, b85Alphabet.getD b 0, b85Alphabet.getD c 0, b85Alphabet.getD d 0, b85Alphabet.getD e 0] with y | l
      · rw [b85Hunk_only hh]; rfl
      · rfl
termination_by ds.length

/-- The hypotheses of `C127_dangling` and `C127_serial` hold. -/
example : b85decode (textOf ([33, 46, 84, 0, 81] ++ [7])) = b85decode (textOf [33, 46, 84, 0, 81]) :=
  (C127_dangling [33, 46, 84, 0, 81] (by decide) (by decide) 7 (by norm_num)).trans (if_pos (by norm_num))

/-- C127.  Serial.decode therefore does not notice such a character after a text of complete groups: the object is that of the text without it. -/
theorem C127_serial {Obj : Type} (lib : SerialLib Obj) (encoding : Text) (ha : AsciiCompatible lib encoding) (ds : List ℕ) (h : ∀ d ∈ ds, d < 85) (hn : ds ≠ [])
    (h5 : 5 ∣ ds.length) (x : ℕ) (hx : x < 82) :
    Serial.decode lib ((textOf (ds ++ [x])).map Char.ofNat) encoding = Serial.decode lib ((textOf ds).map Char.ofNat) encoding := by
  have hasc : ∀ es : List ℕ, (∀ d ∈ es, d < 85) → ∀ c ∈ textOf es, c < 128 := by
    intro es hes c hc
    unfold textOf at hc
    rw [← b85Alphabet_base] at hc
    obtain ⟨d, hd, rfl⟩ := List.mem_map.mp hc
    exact b85Alphabet_ascii _ (getD_mem (hes d hd))
  have hds : ∀ d ∈ ds ++ [x], d < 85 := by
    intro d hd
    rcases List.mem_append.mp hd with hd | hd
    · exact h d hd
    · rw [List.mem_singleton.mp hd]; omega
  have e1 : (textOf (ds ++ [x])).map Char.ofNat ≠ [] := by simp [textOf]
  have e2 : (textOf ds).map Char.ofNat ≠ [] := by simpa [textOf] using hn
  unfold Serial.decode
  rw [ha.encode _ (hasc _ hds), ha.encode _ (hasc _ h), if_neg e1, if_neg e2]
  dsimp only
  rw [C127_dangling ds h h5 x (by omega), if_pos hx]

end Verif.Props
