import Verif.Model.Bytes

/-!
# Fiat–Shamir transcript (`src/transcript/mod.rs`) and challenge indices

The Blake2s state is the list of absorbed bytes; `finalize` is `H` of that list
(`blake2s_simd::State::finalize` does not modify the state).
-/

namespace Hodor

/-- `src/transcript/mod.rs` 28-32 `Blake2sTranscript` -/
structure Transcript where
  absorbed : List UInt8
deriving DecidableEq

variable (H : List UInt8 → Digest)

/-- `src/transcript/mod.rs` 40-47 `new` (asserts `NUM_BITS < 256`). -/
def Transcript.new (F : Type) [Field F] [StarkField F] : Res Transcript := do
  Res.assert (numBits F < 256)
  pure { absorbed := [] }

/-- `src/transcript/mod.rs` 49-51 `commit_bytes` -/
def Transcript.commitBytes (t : Transcript) (bytes : List UInt8) : Transcript :=
  { absorbed := t.absorbed ++ bytes }

section
variable {F : Type} [Field F] [StarkField F]

/-- The bytes absorbed by `commit_field_element` (`src/transcript/mod.rs` 54-56): canonical
representation, big endian, `REPR_SIZE = 8 * limbs` bytes. -/
def encodeElement (x : F) : List UInt8 := beBytes (8 * limbs F) (StarkField.repr x)

/-- `src/transcript/mod.rs` 53-58 `commit_field_element` -/
def Transcript.commitFieldElement (t : Transcript) (x : F) : Transcript :=
  t.commitBytes (encodeElement x)

end

/-- `src/transcript/mod.rs` 60-65 `get_challenge_bytes` -/
def Transcript.getChallengeBytes (t : Transcript) : List UInt8 × Transcript :=
  let value := H t.absorbed
  (value.bytes, { absorbed := t.absorbed ++ value.bytes })

/-- `src/transcript/mod.rs` 67-79 `get_challenge` (lines 71-77 are the code of `interpret_hash`). -/
def Transcript.getChallenge {F : Type} [Field F] [StarkField F] (t : Transcript) : Res (F × Transcript) := do
  let value := H t.absorbed
  let t := { absorbed := t.absorbed ++ value.bytes }
  let c ← interpretHash value
  pure (c, t)

/-- `src/verifier/mod.rs` 246-263 `bytes_to_challenge_index`: the last 8 bytes as a big-endian `u64`.
(`as_ref.len() - 8` underflows for fewer bytes; `%` by zero panics.) -/
def bytesToChallengeIndex (bytes : List UInt8) (ldeSize ldeFactor : ℕ) : Res ℕ := do
  Res.assert (8 ≤ bytes.length)
  Res.assert (0 < ldeSize)
  Res.assert (0 < ldeFactor)
  let idx := ofBeBytes (bytes.drop (bytes.length - 8))
  let idx := idx % ldeSize
  let idx := if idx % ldeFactor = 0 then (idx + 1) % ldeSize else idx
  let idx := if idx % 2 = 0 then (idx + 1) % ldeSize else idx
  pure idx

end Hodor
