import Verif.Model.Serial

/-
Specification vocabulary for Serial: what is assumed of the libraries.
-/

namespace Verif.Spec

/-- A byte string. -/
def IsBytes (l : List ℕ) : Prop := ∀ b ∈ l, b < 256

/-- The 85 characters documented for base64.b85encode. -/
def base85 : List Char :=
  ['0', '1', '2', '3', '4', '5', '6', '7', '8', '9', 'A', 'B', 'C', 'D', 'E', 'F', 'G', 'H', 'I', 'J', 'K', 'L', 'M', 'N', 'O', 'P', 'Q', 'R', 'S', 'T', 'U', 'V', 'W', 'X', 'Y', 'Z',
    'a', 'b', 'c', 'd', 'e', 'f', 'g', 'h', 'i', 'j', 'k', 'l', 'm', 'n', 'o', 'p', 'q', 'r', 's', 't', 'u', 'v', 'w', 'x', 'y', 'z',
    '!', '#', '$', '%', '&', '(', ')', '*', '+', '-', ';', '<', '=', '>', '?', '@', '^', '_', '`', '{', '|', '}', '~']

/-- An encoding, such as utf-8, ascii or latin-1, in which the ASCII characters are the bytes below 128. -/
structure AsciiCompatible {Obj : Type} (lib : SerialLib Obj) (encoding : Text) : Prop where
  decode : ∀ b : List ℕ, (∀ c ∈ b, c < 128) → lib.decode encoding b = .ok (b.map Char.ofNat)
  encode : ∀ b : List ℕ, (∀ c ∈ b, c < 128) → lib.encode encoding (b.map Char.ofNat) = .ok b

/-- An encoding, such as utf-16 or utf-8-sig, whose encoder writes a byte order mark which is no ASCII byte. -/
def WritesMark {Obj : Type} (lib : SerialLib Obj) (encoding : Text) : Prop :=
  ∀ t b, lib.encode encoding t = .ok b → ∃ c ∈ b, 128 ≤ c

/-- pickle: what is dumped is loaded again, and begins with the opcode PROTO, 0x80. -/
structure PickleSpec {Obj : Type} (lib : SerialLib Obj) : Prop where
  loads : ∀ x v, lib.dumps x = .ok v → lib.loads v = .ok x
  proto : ∀ x v, lib.dumps x = .ok v → v.head? = some 128
  bytes : ∀ x v, lib.dumps x = .ok v → IsBytes v

/-- gzip: what is compressed is decompressed again; a member begins with 0x1f 0x8b, and anything else is rejected. -/
structure GzipSpec {Obj : Type} (lib : SerialLib Obj) : Prop where
  decompress : ∀ t v, IsBytes v → lib.decompress (lib.compress t v) = .ok v
  magic : ∀ t v, (lib.compress t v).take 2 = [31, 139]
  bytes : ∀ t v, IsBytes v → IsBytes (lib.compress t v)
  rejects : ∀ v, v ≠ [] → v.take 2 ≠ [31, 139] → ∃ e, lib.decompress v = .error e

/-- The digits of hexdigest. -/
def hexDigits : Text := ['0', '1', '2', '3', '4', '5', '6', '7', '8', '9', 'a', 'b', 'c', 'd', 'e', 'f']

/-- `t` writes the bytes `d` in base 16, two digits per byte. -/
def IsHex (d : List ℕ) (t : Text) : Prop :=
  t.length = 2 * d.length ∧ ∀ i : ℕ, i < d.length → ∃ h l : ℕ, h < 16 ∧ l < 16 ∧ t[2 * i]? = hexDigits[h]? ∧ t[2 * i + 1]? = hexDigits[l]? ∧ d[i]? = some (16 * h + l)

end Verif.Spec
