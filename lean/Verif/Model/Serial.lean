import Verif.Model.Py
import Verif.Model.Log

/-
Model of diamondback/commons/serial.py, and of base64.b85encode and base64.b85decode of the Python library.  Bytes are natural numbers below 256.
pickle, gzip, SHA3-256 and the codecs of character encodings are parameters (`SerialLib`).
-/

namespace Verif

/-- The alphabet of base64.b85encode (serial.py:107, 136). -/
def b85Alphabet : List ℕ := "0123456789ABCDEFGHIJKLMNOPQRSTUVWXYZabcdefghijklmnopqrstuvwxyz!#$%&()*+-;<=>?@^_`{|}~".toList.map Char.toNat

/-- `_b85dec[c]`: the position of a byte in the alphabet, or None (serial.py:107). -/
def b85Digit (c : ℕ) : Option ℕ := b85Alphabet.idxOf? c

/-- `struct.unpack('!I')` of four bytes (serial.py:136). -/
def word4 (a b c d : ℕ) : ℕ := ((a * 256 + b) * 256 + c) * 256 + d

/-- The five characters of a word: `chars2[word // 614125] + chars2[word // 85 % 7225] + chars[word % 85]`, where `chars2[n]` is the characters of `n
// 85` and `n % 85` (serial.py:136). -/
def b85Chunk (w : ℕ) : List ℕ :=
  [w / 614125 / 85, w / 614125 % 85, w / 85 % 7225 / 85, w / 85 % 7225 % 85, w % 85].map fun d => b85Alphabet.getD d 0

/-- base64.b85encode: the last word is padded with zeros, and as many characters are dropped as there were zeros (serial.py:136). -/
def b85encode : List ℕ → List ℕ
  | [] => []
  | [a] => (b85Chunk (word4 a 0 0 0)).take 2
  | [a, b] => (b85Chunk (word4 a b 0 0)).take 3
  | [a, b, c] => (b85Chunk (word4 a b c 0)).take 4
  | a :: b :: c :: d :: t => b85Chunk (word4 a b c d) ++ b85encode t

/-- `struct.pack('!I', acc)`; ValueError if it is too large (serial.py:107). -/
def packWord (acc : ℕ) : Res (List ℕ) :=
  if acc < 4294967296 then .ok [acc / 16777216, acc / 65536 % 256, acc / 256 % 256, acc % 256] else .error .valueError

/-- One chunk of base64.b85decode: `acc = acc * 85 + _b85dec[c]`; ValueError for a byte which is not in the alphabet (serial.py:107). -/
def b85Acc : ℕ → List ℕ → Res ℕ
  | acc, [] => .ok acc
  | acc, c :: t =>
    match b85Digit c with
    | none => .error .valueError
    | some d => b85Acc (acc * 85 + d) t

/-- One chunk of base64.b85decode, with the test of its size (serial.py:107). -/
def b85Hunk (chunk : List ℕ) : Res (List ℕ) :=
  match b85Acc 0 chunk with
  | .error e => .error e
  | .ok acc => packWord acc

/-- `~` (serial.py:107). -/
def tilde : ℕ := 126

/-- base64.b85decode: the last chunk is padded with `~`, and as many bytes are dropped (serial.py:107). -/
def b85decode : List ℕ → Res (List ℕ)
  | [] => .ok []
  | [a] => (b85Hunk [a, tilde, tilde, tilde, tilde]).map (·.take 0)
  | [a, b] => (b85Hunk [a, b, tilde, tilde, tilde]).map (·.take 1)
  | [a, b, c] => (b85Hunk [a, b, c, tilde, tilde]).map (·.take 2)
  | [a, b, c, d] => (b85Hunk [a, b, c, d, tilde]).map (·.take 3)
  | a :: b :: c :: d :: e :: t =>
    match b85Hunk [a, b, c, d, e] with
    | .error x => .error x
    | .ok l =>
      match b85decode t with
      | .error x => .error x
      | .ok r => .ok (l ++ r)

/-- The libraries: `encode` is `bytes(x, encoding)`, `decode` is `str(b, encoding)`; `compress` is gzip.compress, which depends on the time; `digest`
is the SHA3-256 digest (serial.py:86, 107, 109, 136). -/
structure SerialLib (Obj : Type) where
  encode : Text → Text → Res (List ℕ)
  decode : Text → List ℕ → Res Text
  dumps : Obj → Res (List ℕ)
  loads : List ℕ → Res Obj
  compress : ℕ → List ℕ → List ℕ
  decompress : List ℕ → Res (List ℕ)
  digest : List ℕ → List ℕ

/-- `hexdigest` of one byte (serial.py:86). -/
def hexByte (b : ℕ) : Text := [Nat.digitChar (b / 16), Nat.digitChar (b % 16)]

/-- Serial.code (serial.py:68-86). -/
def Serial.code {Obj : Type} (lib : SerialLib Obj) (x encoding : Text) : Res Text :=
  if x = [] then .error .valueError
  else if encoding = [] then .error .valueError
  else match lib.encode encoding x with
    | .error e => .error e
    | .ok b => .ok ((lib.digest b).flatMap hexByte)

/-- The body of `try` (serial.py:108-110): decompress, then unpickle. -/
def Serial.unzip {Obj : Type} (lib : SerialLib Obj) (u : List ℕ) : Res Obj :=
  match lib.decompress u with
  | .error e => .error e
  | .ok v => lib.loads v

/-- Serial.decode (serial.py:88-114). -/
def Serial.decode {Obj : Type} (lib : SerialLib Obj) (x encoding : Text) : Res Obj :=
  if x = [] then .error .valueError
  else if encoding = [] then .error .valueError
  else match lib.encode encoding x with
    | .error e => .error e
    | .ok b =>
      match b85decode b with
      | .error e => .error e
      | .ok u =>
        match Serial.unzip lib u with
        | .ok y => .ok y
        | .error _ => lib.loads u

/-- Serial.encode (serial.py:116-137); `time` is the time of the call. -/
def Serial.encode {Obj : Type} (lib : SerialLib Obj) (time : ℕ) (x : Obj) (compress : Bool) (encoding : Text) : Res Text :=
  if encoding = [] then .error .valueError
  else match lib.dumps x with
    | .error e => .error e
    | .ok v => lib.decode encoding (b85encode (if compress then lib.compress time v else v))

end Verif
