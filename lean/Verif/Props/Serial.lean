import Verif.Lemmas.Serial

/-
Serial: C62, C63, C64.
-/

namespace Verif.Props

open Verif Verif.Spec

/-- C62: decoding an encoded byte string, of any length, returns it. -/
theorem C62_round (l : List ℕ) (h : IsBytes l) : b85decode (b85encode l) = .ok l := b85_round l h

/-- C62: different byte strings are encoded differently. -/
theorem C62_injective (l m : List ℕ) (hl : IsBytes l) (hm : IsBytes m) (h : b85encode l = b85encode m) : l = m := by
  have h1 := b85_round l hl
  rw [h, b85_round m hm] at h1
  exact (Except.ok.inj h1).symm

/-- Bytes of which one is null: the hypotheses of `C62_round` and `C62_injective` hold. -/
example := And.intro (C62_round [255, 0, 7] (by unfold IsBytes; decide)) (C62_injective [255, 0, 7] [255, 0] (by unfold IsBytes; decide) (by unfold IsBytes; decide))

/-- C62: only the 85 documented characters are used, five for every four bytes and one more than the bytes which are left over. -/
theorem C62_alphabet (l : List ℕ) (h : IsBytes l) :
    (∀ c ∈ b85encode l, ∃ d ∈ base85, c = d.toNat) ∧ base85.Nodup ∧ base85.length = 85
      ∧ (b85encode l).length = 5 * (l.length / 4) + (if l.length % 4 = 0 then 0 else l.length % 4 + 1) := by
  refine ⟨?_, by decide +kernel, by decide +kernel, ?_⟩
  · intro c hc
    have := b85encode_mem l h c hc
    rw [b85Alphabet_base] at this
    obtain ⟨d, hd, rfl⟩ := List.mem_map.mp this
    exact ⟨d, hd, rfl⟩
  · rw [b85encode_length]
    split <;> omega

/-- The known encoding of "hello", and a byte string of every length modulo four. -/
example : b85encode ("hello".toList.map Char.toNat) = "Xk~0{Zv".toList.map Char.toNat ∧ b85encode [255, 255, 255, 255] = "|NsC0".toList.map Char.toNat
    ∧ IsBytes [0] ∧ IsBytes [255, 0] ∧ IsBytes [1, 2, 255] := by
  refine ⟨by decide +kernel, by decide +kernel, ?_, ?_, ?_⟩ <;> intro b hb <;> revert b <;> decide

/-- C62: a byte which is none of the 85 characters anywhere in the text is rejected with ValueError. -/
theorem C62_rejects (l : List ℕ) (h : ∃ c ∈ l, ∀ d ∈ base85, c ≠ d.toNat) : b85decode l = .error .valueError := by
  apply b85decode_alien
  obtain ⟨c, hc, h⟩ := h
  refine ⟨c, hc, ?_⟩
  rw [b85Alphabet_base]
  intro hm
  obtain ⟨d, hd, e⟩ := List.mem_map.mp hm
  exact h d hd e.symm

example : ∃ c ∈ "Xk~0{ Zv".toList.map Char.toNat, ∀ d ∈ base85, c ≠ d.toNat := by decide +kernel

/-- C63: whatever is pickled is returned by `decode(encode(x))`, compressed or not, at any time, in every encoding which contains ASCII; the encoded text consists of the 85 documented characters. -/
theorem C63_round {Obj : Type} (lib : SerialLib Obj) (encoding : Text) (ha : AsciiCompatible lib encoding) (he : encoding ≠ []) (hp : PickleSpec lib) (hg : GzipSpec lib)
    (time : ℕ) (x : Obj) (compress : Bool) (v : List ℕ) (hv : lib.dumps x = .ok v) :
    ∃ t, Serial.encode lib time x compress encoding = .ok t ∧ Serial.decode lib t encoding = .ok x ∧ ∀ c ∈ t, c ∈ base85 := by
  have hu : IsBytes (if compress then lib.compress time v else v) := by
    cases compress
    · exact hp.bytes x v hv
    · exact hg.bytes time v (hp.bytes x v hv)
  have hm := b85encode_mem _ hu
  refine ⟨_, serial_encode ha he hp hg hv, ?_, ?_⟩
  · unfold Serial.decode
    rw [if_neg, if_neg he, ha.encode _ fun c hc => b85Alphabet_ascii c (hm c hc)]
    · simp only
      rw [b85_round _ hu]
      simp only
      unfold Serial.unzip
      cases compress with
      | true =>
        simp only [if_true]
        rw [hg.decompress time v (hp.bytes x v hv)]
        simp only
        rw [hp.loads x v hv]
      | false =>
        simp only [Bool.false_eq_true, if_false]
        have h0 := hp.proto x v hv
        obtain ⟨e, h1⟩ := hg.rejects v (by rintro rfl; simp at h0) (by
          intro h
          cases v with
          | nil => simp at h0
          | cons a v =>
            simp only [List.head?_cons, Option.some.injEq] at h0
            subst h0
            simp at h)
        rw [h1]
        simp only
        rw [hp.loads x v hv]
    · intro h
      have h1 := congrArg List.length h
      rw [List.length_map, b85encode_length, List.length_nil] at h1
      have h2 : (if compress then lib.compress time v else v).length = 0 := by omega
      rw [List.length_eq_zero_iff] at h2
      cases compress with
      | true =>
        have := hg.magic time v
        simp only [if_true] at h2
        rw [h2] at this
        simp at this
      | false =>
        have := hp.proto x v hv
        simp only [Bool.false_eq_true, if_false] at h2
        rw [h2] at this
        simp at this
  · intro c hc
    obtain ⟨n, hn, rfl⟩ := List.mem_map.mp hc
    have := hm n hn
    rw [b85Alphabet_base] at this
    obtain ⟨d, hd, rfl⟩ := List.mem_map.mp this
    rw [Char.ofNat_toNat]
    exact hd

/-- Libraries which meet the hypotheses: the objects are lists of bytes, the compression adds a header. -/
def plainLib : SerialLib { l : List ℕ // IsBytes l } where
  encode := fun _ t => .ok (t.map Char.toNat)
  decode := fun _ b => .ok (b.map Char.ofNat)
  dumps := fun x => .ok (128 :: x.1)
  loads := fun v => match v with
    | 128 :: l => if h : ∀ b ∈ l, b < 256 then .ok ⟨l, h⟩ else .error .other
    | _ => .error .other
  compress := fun _ v => 31 :: 139 :: v
  decompress := fun v => match v with
    | [] => .ok []
    | 31 :: 139 :: l => .ok l
    | _ => .error .other
  digest := fun _ => List.replicate 32 0

theorem isBytes_cons {a : ℕ} {l : List ℕ} (ha : a < 256) (h : IsBytes l) : IsBytes (a :: l) := by
  intro b hb
  rcases List.mem_cons.mp hb with rfl | hb
  · exact ha
  · exact h b hb

/-- A library which meets the hypotheses, and those of `C63_unpicklable` and `C63_detect` with a `dumps` or `loads` which fails. -/
example : AsciiCompatible plainLib "utf-8".toList ∧ PickleSpec plainLib ∧ GzipSpec plainLib ∧ plainLib.dumps ⟨[1, 255], by unfold IsBytes; decide⟩ = .ok [128, 1, 255] := by
  refine ⟨⟨fun b _ => rfl, ?_⟩, ⟨?_, ?_, ?_⟩, ⟨?_, ?_, ?_, ?_⟩, rfl⟩
  · intro b hb
    change Except.ok _ = Except.ok b
    congr 1
    rw [List.map_map]
    conv_rhs => rw [← List.map_id b]
    apply List.map_congr_left
    intro c hc
    have key : ∀ c : ℕ, c < 128 → (Char.ofNat c).toNat = c := by decide +kernel
    exact key c (hb c hc)
  · intro x v h
    obtain rfl := Except.ok.inj h
    exact dif_pos x.2
  · intro x v h
    obtain rfl := Except.ok.inj h
    rfl
  · intro x v h
    obtain rfl := Except.ok.inj h
    exact isBytes_cons (by decide) x.2
  · intro t v _; rfl
  · intro t v; rfl
  · intro t v h
    exact isBytes_cons (by decide) (isBytes_cons (by decide) h)
  · intro v h1 h2
    refine ⟨.other, ?_⟩
    unfold plainLib
    simp only
    split
    · exact absurd rfl h1
    · simp at h2
    · rfl

/-- C63: an object which cannot be pickled raises the exception of pickle, compressed or not. -/
theorem C63_unpicklable {Obj : Type} (lib : SerialLib Obj) (encoding : Text) (he : encoding ≠ []) (time : ℕ) (x : Obj) (compress : Bool) (e : PyErr) (hx : lib.dumps x = .error e) :
    Serial.encode lib time x compress encoding = .error e := by
  unfold Serial.encode
  rw [if_neg he, hx]

/-- C63: the compression is detected by trying: any text whose bytes are not a gzip member is loaded as it is. -/
theorem C63_detect {Obj : Type} (lib : SerialLib Obj) (encoding x : Text) (b u : List ℕ) (hx : x ≠ []) (he : encoding ≠ []) (hb : lib.encode encoding x = .ok b) (hu : b85decode b = .ok u) :
    (∀ v y, lib.decompress u = .ok v → lib.loads v = .ok y → Serial.decode lib x encoding = .ok y)
      ∧ (∀ e, lib.decompress u = .error e → Serial.decode lib x encoding = lib.loads u)
      ∧ (∀ v e, lib.decompress u = .ok v → lib.loads v = .error e → Serial.decode lib x encoding = lib.loads u) := by
  unfold Serial.decode Serial.unzip
  rw [if_neg hx, if_neg he, hb]
  simp only
  rw [hu]
  simp only
  refine ⟨fun v y h1 h2 => ?_, fun e h1 => ?_, fun v e h1 h2 => ?_⟩
  · rw [h1]; simp only; rw [h2]
  · rw [h1]
  · rw [h1]; simp only; rw [h2]

/-- C63: in an encoding which writes a byte order mark nothing can be decoded: `decode` raises ValueError for every text, also for those written by `encode` with the same encoding. -/
theorem C63_mark {Obj : Type} (lib : SerialLib Obj) (encoding : Text) (hw : WritesMark lib encoding) (t : Text) (b : List ℕ) (hb : lib.encode encoding t = .ok b) :
    Serial.decode lib t encoding = .error .valueError := by
  unfold Serial.decode
  split
  · rfl
  split
  · rfl
  rw [hb]
  simp only
  rw [b85decode_alien]
  obtain ⟨c, hc, h⟩ := hw t b hb
  exact ⟨c, hc, fun hm => absurd (b85Alphabet_ascii c hm) (by omega)⟩

example : WritesMark { plainLib with encode := fun _ t => .ok (239 :: 187 :: 191 :: t.map Char.toNat) } "utf-8-sig".toList := by
  intro t b h
  obtain rfl := Except.ok.inj h
  exact ⟨239, by simp, by decide⟩

/-- C64: an empty text or an empty encoding is rejected with ValueError, whatever the libraries do. -/
theorem C64_rejects {Obj : Type} (lib : SerialLib Obj) (t : Text) (time : ℕ) (x : Obj) (compress : Bool) (encoding : Text) :
    Serial.code lib [] encoding = .error .valueError ∧ Serial.decode lib [] encoding = .error .valueError
      ∧ Serial.code lib t [] = .error .valueError ∧ Serial.decode lib t [] = .error .valueError ∧ Serial.encode lib time x compress [] = .error .valueError := by
  refine ⟨rfl, rfl, ?_, ?_, rfl⟩
  · unfold Serial.code; split <;> rfl
  · unfold Serial.decode; split <;> rfl

/-- C64: otherwise the code is the digest of the bytes of the text in base 16: 64 lower-case digits, the same for every text and encoding with the same bytes, and different for different digests. -/
theorem C64_code {Obj : Type} (lib : SerialLib Obj) (hd : ∀ b, IsBytes (lib.digest b) ∧ (lib.digest b).length = 32) (t encoding : Text) (ht : t ≠ []) (he : encoding ≠ []) (b : List ℕ)
    (hb : lib.encode encoding t = .ok b) :
    ∃ c, Serial.code lib t encoding = .ok c ∧ c.length = 64 ∧ (∀ d ∈ c, d ∈ hexDigits) ∧ IsHex (lib.digest b) c := by
  have h := isHex_flatMap _ (hd b).1
  refine ⟨(lib.digest b).flatMap hexByte, ?_, ?_, ?_, h⟩
  · unfold Serial.code
    rw [if_neg ht, if_neg he, hb]
  · rw [h.1, (hd b).2]
  · intro d hm
    obtain ⟨n, hn, hd'⟩ := List.mem_flatMap.mp hm
    have key : ∀ n : ℕ, n < 256 → ∀ d ∈ hexByte n, d ∈ hexDigits := by decide +kernel
    exact key n ((hd b).1 n hn) d hd'

theorem isHex_unique (d d' : List ℕ) (c : Text) (h : IsHex d c) (h' : IsHex d' c) : d = d' := by
  have inj : ∀ h : ℕ, h < 16 → ∀ l : ℕ, l < 16 → hexDigits[h]? = hexDigits[l]? → h = l := by decide +kernel
  apply List.ext_getElem?
  intro i
  have hl : d.length = d'.length := by have := h.1; have := h'.1; omega
  by_cases hi : i < d.length
  · obtain ⟨p, q, hp, hq, h1, h2, h3⟩ := h.2 i hi
    obtain ⟨p', q', hp', hq', h1', h2', h3'⟩ := h'.2 i (by omega)
    have e1 := inj p hp p' hp' (h1.symm.trans h1')
    have e2 := inj q hq q' hq' (h2.symm.trans h2')
    rw [h3, h3', e1, e2]
  · rw [List.getElem?_eq_none (by omega), List.getElem?_eq_none (by omega)]

/-- C64: two texts have the same code exactly if the digests of their bytes are the same. -/
theorem C64_digest {Obj : Type} (lib : SerialLib Obj) (hd : ∀ b, IsBytes (lib.digest b) ∧ (lib.digest b).length = 32) (t t' encoding encoding' : Text) (ht : t ≠ []) (ht' : t' ≠ [])
    (he : encoding ≠ []) (he' : encoding' ≠ []) (b b' : List ℕ) (hb : lib.encode encoding t = .ok b) (hb' : lib.encode encoding' t' = .ok b') :
    Serial.code lib t encoding = Serial.code lib t' encoding' ↔ lib.digest b = lib.digest b' := by
  obtain ⟨c, h1, _, _, h2⟩ := C64_code lib hd t encoding ht he b hb
  obtain ⟨c', h1', _, _, h2'⟩ := C64_code lib hd t' encoding' ht' he' b' hb'
  constructor
  · intro h
    rw [h1, h1'] at h
    obtain rfl := Except.ok.inj h
    exact isHex_unique _ _ _ h2 h2'
  · intro h
    unfold Serial.code
    rw [if_neg ht, if_neg he, if_neg ht', if_neg he', hb, hb']
    simp only [h]

/-- The hypothesis of `C64_code` on the digest holds. -/
example : ∀ b, IsBytes (plainLib.digest b) ∧ (plainLib.digest b).length = 32 := by
  intro b
  refine ⟨?_, rfl⟩
  intro c hc
  have := List.eq_of_mem_replicate hc
  omega

end Verif.Props
