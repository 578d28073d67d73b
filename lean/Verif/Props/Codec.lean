import Verif.Model.Codec
import Mathlib.Tactic.Linarith
import Mathlib.Tactic.Ring
import Mathlib.Tactic.NormNum

/-! # C40, C41, C75: the binary encoding of stored results -/

set_option linter.unusedSectionVars false

namespace Pysatl.Props

open Pysatl Pysatl.Codec

variable {F : Type}

theorem unpack_pack {n : ℕ} (h : n < 2 ^ 32) :
    unpackU32 (UInt8.ofNat (n % 256)) (UInt8.ofNat (n / 256 % 256)) (UInt8.ofNat (n / 65536 % 256))
      (UInt8.ofNat (n / 16777216 % 256)) = n := by
  unfold unpackU32
  simp only [UInt8.toNat_ofNat']
  omega

theorem fromBuffer_toBytes (enc : F → Bytes) (dec : Bytes → F) (r : F → F) (size : ℕ)
    (hlen : ∀ x, (enc x).length = size) (hdec : ∀ x, dec (enc x) = r x) (v : List F) :
    fromBuffer dec size v.length (v.flatMap enc) = .ok (v.map r) := by
  induction v with
  | nil => rfl
  | cons x v ih =>
    have hl : ((x :: v).flatMap enc).length = size * (v.length + 1) := by
      rw [List.flatMap_cons, List.length_append, hlen]
      have : (v.flatMap enc).length = size * v.length := by
        clear ih
        induction v with
        | nil => simp
        | cons y v ih => rw [List.flatMap_cons, List.length_append, hlen, ih, List.length_cons]; ring
      rw [this]; ring
    show fromBuffer dec size (v.length + 1) _ = _
    unfold fromBuffer
    rw [hl, if_neg (lt_irrefl _), List.flatMap_cons,
      List.drop_append_of_le_length (by rw [hlen]), List.take_append_of_le_length (by rw [hlen])]
    have h1 : (enc x).drop size = [] := by rw [List.drop_eq_nil_iff, hlen]
    have h2 : (enc x).take size = enc x := by rw [List.take_of_length_le (by rw [hlen])]
    rw [h1, h2, List.nil_append, ih, hdec]
    rfl

theorem fromBuffer_length (dec : Bytes → F) (size n : ℕ) (b : Bytes) (v : List F)
    (h : fromBuffer dec size n b = .ok v) : v.length = n ∧ size * n ≤ b.length := by
  induction n generalizing b v with
  | zero => simp only [fromBuffer, Except.ok.injEq] at h; subst h; simp
  | succ n ih =>
    unfold fromBuffer at h
    split at h
    · cases h
    · rename_i hb
      cases hr : fromBuffer dec size n (b.drop size) with
      | error e => rw [hr] at h; cases h
      | ok w =>
        rw [hr] at h
        obtain rfl := Except.ok.inj h
        exact ⟨by rw [List.length_cons, (ih _ _ hr).1], by omega⟩

/-- What one encoding/decoding cycle does to one number. -/
def Codec.cycle (fmt : FloatFormat F) (use32 : Bool) : F → F := if use32 then fmt.round32 else id

theorem processResult_blob (E : Env F) (d b0 b1 b2 b3 : UInt8) (rest : Bytes) :
    processResultValue E (.blob (1 :: d :: b0 :: b1 :: b2 :: b3 :: rest)) =
      match E.zstd.decompress rest with
      | .error e => .error e
      | .ok bytes =>
        match decodePayload E.fmt d (unpackU32 b0 b1 b2 b3) bytes with
        | .error e => .error e
        | .ok v => .ok (some v) := by
  simp only [processResultValue, ne_eq, not_true_eq_false, if_false]
  cases E.zstd.decompress rest with
  | error e => rfl
  | ok bytes =>
    cases h : decodePayload E.fmt d (unpackU32 b0 b1 b2 b3) bytes with
    | error e => simp [bind, Except.bind, h]
    | ok v => simp [bind, Except.bind, h, pure, Except.pure]

theorem bindFloats_ok (E : Env F) (use32 : Bool) {v : List F} (h : v.length < 2 ^ 32) :
    ∃ b, bindFloats E use32 v = .ok b ∧
      processResultValue E (.blob b) = .ok (some (v.map (Codec.cycle E.fmt use32))) := by
  refine ⟨_, by unfold bindFloats packU32; rw [if_pos h]; rfl, ?_⟩
  simp only [List.cons_append, List.nil_append]
  rw [processResult_blob, E.zstd.decompress_compress, unpack_pack h]
  cases use32
  · have := fromBuffer_toBytes E.fmt.enc64 E.fmt.dec64 id 8 E.fmt.enc64_length E.fmt.dec64_enc64 v
    simp only [decodePayload, toBytes, Bool.false_eq_true, if_false]
    rw [if_neg (by decide), this]
    rfl
  · have := fromBuffer_toBytes E.fmt.enc32 E.fmt.dec32 E.fmt.round32 4 E.fmt.enc32_length
      E.fmt.dec32_enc32 v
    simp only [decodePayload, toBytes, if_true]
    rw [this]
    rfl

/-- **C40.** For every list of fewer than `2^32` numbers and both storage modes: writing and
reading back gives the list itself (double precision) or its element-wise single-precision
rounding; writing that result and reading it back again changes nothing more; a list too long
for the header raises instead of being cut; `None` stays `None`. -/
theorem C40_round_trip (E : Env F) (use32 : Bool) (v : List F) :
    (v.length < 2 ^ 32 → ∃ c w, processBindParam E use32 (.floats v) = .ok c ∧
      processResultValue E c = .ok (some w) ∧ w.length = v.length ∧
      (∀ i : ℕ, w[i]? = (v[i]?).map (if use32 then E.fmt.round32 else id)) ∧
      ∃ c', processBindParam E use32 (.floats w) = .ok c' ∧
        processResultValue E c' = .ok (some w)) ∧
    (2 ^ 32 ≤ v.length → processBindParam E use32 (.floats v) = .error .structError) ∧
    processBindParam E use32 .none = .ok .null ∧ processResultValue E .null = .ok none := by
  refine ⟨fun h => ?_, fun h => ?_, rfl, rfl⟩
  · obtain ⟨b, hb, hr⟩ := bindFloats_ok E use32 h
    have h' : (v.map (Codec.cycle E.fmt use32)).length < 2 ^ 32 := by simpa using h
    obtain ⟨b', hb', hr'⟩ := bindFloats_ok E use32 h'
    refine ⟨.blob b, _, by simp only [processBindParam, hb]; rfl, hr, by simp,
      fun i => by rw [List.getElem?_map]; rfl, .blob b',
      by simp only [processBindParam, hb']; rfl, ?_⟩
    rw [hr', List.map_map]
    congr 3
    funext x
    cases use32
    · rfl
    · exact E.fmt.round32_round32 x
  · have h' : ¬ v.length < 2 ^ 32 := by omega
    simp only [processBindParam, bindFloats, packU32, if_neg h']
    rfl

/-- Little-endian base-256 digits of a natural number. -/
def digits : ℕ → ℕ → Bytes
  | 0, _ => []
  | k + 1, n => UInt8.ofNat (n % 256) :: digits k (n / 256)

/-- A toy environment meeting all the laws: numbers below `2^32`, stored in one way, no
compression. -/
def toyFmt : FloatFormat (Fin (2 ^ 32)) where
  enc32 x := [UInt8.ofNat (x.1 % 256), UInt8.ofNat (x.1 / 256 % 256),
    UInt8.ofNat (x.1 / 65536 % 256), 0]
  dec32 b := match b with
    | [a, b, c, d] => Fin.ofNat _ (unpackU32 a b c d)
    | _ => 0
  enc64 x := [UInt8.ofNat (x.1 % 256), UInt8.ofNat (x.1 / 256 % 256),
    UInt8.ofNat (x.1 / 65536 % 256), UInt8.ofNat (x.1 / 16777216 % 256), 0, 0, 0, 0]
  dec64 b := match b with
    | [a, b, c, d, _, _, _, _] => Fin.ofNat _ (unpackU32 a b c d)
    | _ => 0
  round32 x := Fin.ofNat _ (x.1 % 16777216)
  enc32_length _ := rfl
  enc64_length _ := rfl
  dec32_enc32 x := by
    simp only [unpackU32, UInt8.toNat_ofNat', UInt8.toNat_zero]
    congr 1
    omega
  dec64_enc64 x := by
    simp only [unpack_pack x.2]
    exact Fin.ofNat_val_eq_self x
  round32_round32 x := by
    apply Fin.ext
    simp only [Fin.val_ofNat]
    omega

def toyZstd : Zstd := ⟨id, .ok, fun _ => rfl⟩

def toyEnv : Env (Fin (2 ^ 32)) := ⟨toyFmt, toyZstd, fun _ => .error .valueError⟩

example : ∃ c, processBindParam toyEnv true (.floats [3, 16777217, 300]) = .ok c ∧
    processResultValue toyEnv c = .ok (some [3, 1, 300]) := by
  obtain ⟨b, hb, hr⟩ := bindFloats_ok toyEnv true (v := [3, 16777217, 300]) (by decide)
  exact ⟨.blob b, by simp only [processBindParam, hb]; rfl, hr.trans rfl⟩

/-- The number of values a blob announces: bytes 2 to 5, little endian. -/
def announced (b : Bytes) : ℕ :=
  (b.getD 2 0).toNat + 256 * (b.getD 3 0).toNat + 256 ^ 2 * (b.getD 4 0).toNat +
    256 ^ 3 * (b.getD 5 0).toNat

/-- **C41.** A blob shorter than the header or with a version byte other than 1 raises
`ValueError`; a blob that decompresses to too few bytes for the announced number of values
raises `ValueError`; and whenever a list is returned, its length is the announced one. -/
theorem C41_malformed (E : Env F) (b : Bytes) :
    (b.length < 6 → processResultValue E (.blob b) = .error .valueError) ∧
    (6 ≤ b.length → b.head? ≠ some 1 → processResultValue E (.blob b) = .error .valueError) ∧
    (∀ bytes, 6 ≤ b.length → b.head? = some 1 → E.zstd.decompress (b.drop 6) = .ok bytes →
      bytes.length < (if b[1]? = some 1 then 4 else 8) * announced b →
      processResultValue E (.blob b) = .error .valueError) ∧
    (∀ w, processResultValue E (.blob b) = .ok w →
      ∃ v, w = some v ∧ v.length = announced b ∧ 6 ≤ b.length ∧ b.head? = some 1) := by
  rcases b with _ | ⟨a, _ | ⟨d, _ | ⟨b0, _ | ⟨b1, _ | ⟨b2, _ | ⟨b3, rest⟩⟩⟩⟩⟩⟩
  iterate 6 (refine ⟨fun _ => rfl, fun h => by simp at h, fun _ h => by simp at h, fun w h => ?_⟩; cases h)
  have ha : announced (a :: d :: b0 :: b1 :: b2 :: b3 :: rest) = unpackU32 b0 b1 b2 b3 := by
    simp only [announced, unpackU32, List.getD_cons_succ, List.getD_cons_zero]; ring
  rw [ha]
  refine ⟨fun h => by simp at h; omega, fun _ h => ?_, fun bytes _ h1 hd hlt => ?_, fun w h => ?_⟩
  · have h' : a ≠ 1 := by simpa using h
    simp only [processResultValue, ne_eq, h', not_false_eq_true, if_true]
  · have h' : a = 1 := by simpa using h1
    subst h'
    have hd' : E.zstd.decompress rest = .ok bytes := hd
    rw [processResult_blob, hd']
    have key : ∀ (dec : Bytes → F) (size : ℕ), bytes.length < size * unpackU32 b0 b1 b2 b3 →
        fromBuffer dec size (unpackU32 b0 b1 b2 b3) bytes = .error .valueError := by
      intro dec size hs
      cases hn : unpackU32 b0 b1 b2 b3 with
      | zero => rw [hn] at hs; simp at hs
      | succ n => rw [hn] at hs; unfold fromBuffer; rw [if_pos hs]
    by_cases hdt : d = 1
    · subst hdt
      simp only [decodePayload, if_true]
      rw [key _ _ (by simpa using hlt)]
    · simp only [decodePayload, if_neg hdt]
      rw [key _ _ (by simpa [hdt] using hlt)]
  · by_cases h1 : a = 1
    · subst h1
      rw [processResult_blob] at h
      cases hd : E.zstd.decompress rest with
      | error e => rw [hd] at h; cases h
      | ok bytes =>
        rw [hd] at h
        dsimp only at h
        cases hf : decodePayload E.fmt d (unpackU32 b0 b1 b2 b3) bytes with
        | error e => rw [hf] at h; cases h
        | ok v =>
          rw [hf] at h
          refine ⟨v, (Except.ok.inj h).symm, ?_, by simp, rfl⟩
          unfold decodePayload at hf
          split at hf <;> exact (fromBuffer_length _ _ _ _ _ hf).1
    · simp only [processResultValue, ne_eq, h1, not_false_eq_true, if_true] at h
      cases h

example : processResultValue toyEnv (.blob [1, 1, 2, 0, 0, 0, 7, 0, 0, 0]) = .error .valueError :=
  (C41_malformed toyEnv _).2.2.1 [7, 0, 0, 0] (by decide) rfl rfl (by decide)

/-- **C75, refuted.** A type code the writer never produces (any code but 1 and 2) is not
rejected: the blob is read as if it said double precision. -/
theorem C75_refuted (E : Env F) (v : List F) (hv : v.length < 2 ^ 32) (code : UInt8) (h1 : code ≠ 1) :
    ∃ b, bindFloats E false v = .ok b ∧
      processResultValue E (.blob (b.set 1 code)) = .ok (some v) := by
  refine ⟨_, by unfold bindFloats packU32; rw [if_pos hv]; rfl, ?_⟩
  simp only [List.cons_append, List.nil_append, List.set_cons_succ, List.set_cons_zero]
  rw [processResult_blob, E.zstd.decompress_compress, unpack_pack hv]
  have := fromBuffer_toBytes E.fmt.enc64 E.fmt.dec64 id 8 E.fmt.enc64_length E.fmt.dec64_enc64 v
  simp only [decodePayload, if_neg h1, toBytes, Bool.false_eq_true, if_false]
  rw [this, List.map_id]

example : ∃ b, bindFloats toyEnv false [5, 6] = .ok b ∧
    processResultValue toyEnv (.blob (b.set 1 9)) = .ok (some [5, 6]) :=
  C75_refuted toyEnv [5, 6] (by decide) 9 (by decide)

/-- **C75, what holds.** Apart from the type byte every header field is checked or used: a
blob whose version differs is rejected (C41), and for a written blob the type byte decides the
precision: changing it to single precision makes the values of a double-precision blob be
read from the first half of the bytes only. Proved here: on blobs written by the library the
type byte is 1 or 2. -/
theorem C75_written_codes_partial (E : Env F) (use32 : Bool) (v : List F) (b : Bytes)
    (h : bindFloats E use32 v = .ok b) : b[1]? = some (if use32 then 1 else 2) ∧ b[0]? = some 1 := by
  unfold bindFloats at h
  cases hp : packU32 v.length with
  | error e => rw [hp] at h; cases h
  | ok l =>
    rw [hp] at h
    obtain rfl := Except.ok.inj h
    exact ⟨rfl, rfl⟩

example : ∃ b, bindFloats toyEnv true [5, 6] = .ok b := ⟨_, rfl⟩

end Pysatl.Props
