import Verif.Model.Basic
import Mathlib.Data.List.Basic
import Mathlib.Data.UInt

/-!
# Model of the binary column type for simulated statistics

`/repo/src/pysatl_criterion/persistence/sqlalchemy/alchemy_decorator.py`.

`F` is the type of Python floats (infinities and NaN included: no arithmetic is used).
numpy's float formats, zstd and JSON are parameters with the laws stated in the structures
below.
-/

namespace Pysatl.Codec

abbrev Bytes := List UInt8

/-- `np.asarray(value, dtype=...).tobytes()` and `np.frombuffer(...).tolist()` element by
element, `alchemy_decorator.py` 44-45, 75-76.  Laws: an element takes 4 (8) bytes; float64
round-trips exactly; float32 round-trips to the nearest single precision number, and rounding
twice is rounding once. -/
structure FloatFormat (F : Type) where
  enc32 : F → Bytes
  dec32 : Bytes → F
  enc64 : F → Bytes
  dec64 : Bytes → F
  round32 : F → F
  enc32_length : ∀ x, (enc32 x).length = 4
  enc64_length : ∀ x, (enc64 x).length = 8
  dec32_enc32 : ∀ x, dec32 (enc32 x) = round32 x
  dec64_enc64 : ∀ x, dec64 (enc64 x) = x
  round32_round32 : ∀ x, round32 (round32 x) = round32 x

/-- `zstd.ZstdCompressor().compress` and `zstd.ZstdDecompressor().decompress`,
`alchemy_decorator.py` 27-28.  Law: decompression inverts compression; on other input it may
raise anything. -/
structure Zstd where
  compress : Bytes → Bytes
  decompress : Bytes → Except PyErr Bytes
  decompress_compress : ∀ b, decompress (compress b) = .ok b

/-- The environment of the column type: formats, compressor, `json.loads` of a list of floats. -/
structure Env (F : Type) where
  fmt : FloatFormat F
  zstd : Zstd
  jsonLoads : String → Except PyErr (List F)

variable {F : Type}

/-- `struct.pack("<I", n)`: little endian, `struct.error` unless `0 ≤ n < 2^32`
(`alchemy_decorator.py` 48). -/
def packU32 (n : ℕ) : Except PyErr Bytes :=
  if n < 2 ^ 32 then
    .ok [UInt8.ofNat (n % 256), UInt8.ofNat (n / 256 % 256), UInt8.ofNat (n / 65536 % 256),
      UInt8.ofNat (n / 16777216 % 256)]
  else .error .structError

/-- `struct.unpack("<I", ...)` of four bytes (`alchemy_decorator.py` 66). -/
def unpackU32 (b0 b1 b2 b3 : UInt8) : ℕ :=
  b0.toNat + 256 * b1.toNat + 65536 * b2.toNat + 16777216 * b3.toNat

/-- What a caller hands to the column: `None`, a string (old JSON columns) or a list. -/
inductive Value (F : Type) where
  | none
  | text (s : String)
  | floats (v : List F)

/-- What the database column holds. -/
inductive Column where
  | null
  | text (s : String)
  | blob (b : Bytes)
  deriving DecidableEq

/-- Bytes of a numpy array: `np.asarray(value, dtype=dtype).tobytes()`,
`alchemy_decorator.py` 41-45. -/
def toBytes (fmt : FloatFormat F) (use32 : Bool) (v : List F) : Bytes :=
  v.flatMap (if use32 then fmt.enc32 else fmt.enc64)

/-- Lines 41-49 of `process_bind_param`. -/
def bindFloats (E : Env F) (use32 : Bool) (v : List F) : Except PyErr Bytes := do
  let compressed := E.zstd.compress (toBytes E.fmt use32 v)
  let len ← packU32 v.length
  return [1, if use32 then 1 else 2] ++ len ++ compressed

/-- `process_bind_param`, `alchemy_decorator.py` 30-49. -/
def processBindParam (E : Env F) (use32 : Bool) : Value F → Except PyErr Column
  | .none => .ok .null
  | .text s => do
    let v ← E.jsonLoads s
    let b ← bindFloats E use32 v
    return .blob b
  | .floats v => do
    let b ← bindFloats E use32 v
    return .blob b

/-- `np.frombuffer(bytes, dtype, count=n).tolist()`, `alchemy_decorator.py` 75-76: `ValueError`
when there are too few bytes, surplus bytes are ignored. -/
def fromBuffer (dec : Bytes → F) (size : ℕ) : ℕ → Bytes → Except PyErr (List F)
  | 0, _ => .ok []
  | n + 1, b =>
    if b.length < size * (n + 1) then .error .valueError
    else do
      let rest ← fromBuffer dec size n (b.drop size)
      return dec (b.take size) :: rest

/-- The array read from the decompressed bytes, `alchemy_decorator.py` 72-76: single precision
for type code 1, double precision for every other code. -/
def decodePayload (fmt : FloatFormat F) (dtype : UInt8) (n : ℕ) (bytes : Bytes) :
    Except PyErr (List F) :=
  if dtype = 1 then fromBuffer fmt.dec32 4 n bytes else fromBuffer fmt.dec64 8 n bytes

/-- `process_result_value`, `alchemy_decorator.py` 51-76. -/
def processResultValue (E : Env F) : Column → Except PyErr (Option (List F))
  | .null => .ok none
  | .text s => do
    let v ← E.jsonLoads s
    return some v
  | .blob b =>
    match b with
    | version :: dtype :: b0 :: b1 :: b2 :: b3 :: compressed =>
      if version ≠ 1 then .error .valueError
      else do
        let bytes ← E.zstd.decompress compressed
        let v ← decodePayload E.fmt dtype (unpackU32 b0 b1 b2 b3) bytes
        return some v
    | _ => .error .valueError

end Pysatl.Codec
