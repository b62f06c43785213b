import Verif.Model.Bytes
import Verif.Model.Domain
import Verif.Model.Fft

/-!
# Merkle-tree IOP (`src/iop/blake2s_trivial_iop.rs`, `src/iop/trivial_coset_combiner.rs`)
-/

namespace Hodor

variable {F : Type} [Field F] [StarkField F] (H : List UInt8 → Digest)

/-- `src/iop/blake2s_trivial_iop.rs` 81-92 `hash_leaf` / `hash_encoded_leaf` -/
def hashLeaf (x : F) : Digest := H (encodeLeaf x)

/-- `src/iop/blake2s_trivial_iop.rs` 94-104 `hash_node`: absorbs all values (the level is ignored;
`debug_assert!(values.len() == 2)` is not modelled, all callers pass two). -/
def hashNode (values : List Digest) : Digest := H (values.map Digest.bytes).flatten

/-- `src/iop/blake2s_trivial_iop.rs` 107-111 `Blake2sIopTree` -/
structure IopTree where
  size : ℕ
  nodes : List Digest

/-- `[0u8; 32]` -/
def zeroDigest : Digest := ⟨List.replicate 32 0, by simp⟩

/-- `src/iop/blake2s_trivial_iop.rs` 180-190 (and 200-209): hash pairs of `inputs` into `outputs`, split
into tasks by `outputs.chunks_mut(chunk).zip(inputs.chunks(chunk*2))`. -/
def hashLevel (w : Worker) (outputs inputs : List Digest) : List Digest :=
  let c := w.chunkSize outputs.length
  ((chunks c outputs).mapIdx (fun i o =>
    ((chunks (c * 2) inputs)[i]?.map
      (fun v => zipUpdate (fun _ pair => hashNode H pair) o (chunks 2 v))).getD o)).flatten

/-- `src/iop/blake2s_trivial_iop.rs` 195-211: body of the loop over levels. `nodes_for_hashing` is the
prefix of `nodes` of length `len`; `inputs` is its upper half and `outputs` the upper half of its lower
half. -/
def createLevel (w : Worker) (s : List Digest × ℕ) : Res (List Digest × ℕ) := do
  let (nodes, len) := s
  let half := len / 2
  let inputs := (nodes.take len).drop half
  let outputs := (nodes.take half).drop (half / 2)
  Res.assert (outputs.length * 2 = inputs.length)
  Res.assert (isPow2 outputs.length)
  let outputs := hashLevel H w outputs inputs
  pure (nodes.take (half / 2) ++ outputs ++ nodes.drop half, half)

/-- `src/iop/blake2s_trivial_iop.rs` 149-165: hash the leaves. The vector of hashes is split into chunks; task `i` fills entry `j` of its chunk with the
hash of leaf `i*chunk + j` (`get_for_tree_index` indexes the slice, `src/iop/trivial_coset_combiner.rs` 26-29). -/
def hashLeafs (w : Worker) (leafs : List F) : Res (List Digest) := do
  let leafHashes := List.replicate leafs.length zeroDigest
  let chunk := w.chunkSize leafs.length
  let parts ← collectN (chunks chunk leafHashes).length (fun i => do
    let lh ← rd (chunks chunk leafHashes) i
    collectN lh.length (fun j => do
      let leaf ← rd leafs (i * chunk + j)
      pure (hashLeaf H leaf)))
  pure parts.flatten

/-- `src/iop/blake2s_trivial_iop.rs` 131-219 `create` (the worker is `Worker::new()`, line 147, any number
of CPUs). `num_levels - 1` underflows (panics) for one leaf. -/
def IopTree.create (w : Worker) (leafs : List F) : Res IopTree := do
  let numLeafs := leafs.length
  Res.assert (numLeafs = nextPow2 numLeafs)
  let nodes := List.replicate numLeafs zeroDigest
  let leafHashes ← hashLeafs H w leafs
  let numLevels ← log2Floor numLeafs
  Res.assert (1 ≤ numLevels)
  let outputs := nodes.drop (nodes.length / 2)
  Res.assert (outputs.length * 2 = leafHashes.length)
  Res.assert (isPow2 outputs.length)
  let nodes := nodes.take (nodes.length / 2) ++ hashLevel H w outputs leafHashes
  let (nodes, _) ← forN (numLevels - 1) 0 (nodes, nodes.length) (fun _ s => createLevel H w s)
  pure { size := numLeafs, nodes := nodes }

/-- `src/iop/blake2s_trivial_iop.rs` 221-224 `get_root` -/
def IopTree.getRoot (t : IopTree) : Res Digest := rd t.nodes 1

/-- `src/iop/blake2s_trivial_iop.rs` 226-228 `encode_root_into_challenge` -/
def encodeRootIntoChallenge (root : Digest) : Res F := interpretHash root

/-- `src/iop/blake2s_trivial_iop.rs` 230-234 `get_challenge_scalar_from_root` -/
def IopTree.getChallengeScalarFromRoot (t : IopTree) : Res F := do
  let root ← t.getRoot
  encodeRootIntoChallenge root

/-- `src/iop/blake2s_trivial_iop.rs` 239-246: the loop of `verify`. -/
def verifyLoop : Digest → ℕ → List Digest → Digest
  | hash, _, [] => hash
  | hash, idx, el :: path =>
    verifyLoop (if idx % 2 = 0 then hashNode H [hash, el] else hashNode H [el, hash]) (idx / 2) path

/-- `src/iop/blake2s_trivial_iop.rs` 236-249 `verify` -/
def IopTree.verify (root : Digest) (leafValue : F) (path : List Digest) (treeIndex : ℕ) : Bool :=
  verifyLoop H (hashLeaf H leafValue) treeIndex path = root

/-- `src/iop/blake2s_trivial_iop.rs` 268-276: body of the loop of `get_path`; state is the slice `nodes`,
the index and the path. -/
def pathStep (s : List Digest × ℕ × List Digest) : Res (List Digest × ℕ × List Digest) := do
  let (nodes, idx, path) := s
  let half := nodes.length / 2
  let value ← rd (nodes.drop half) (idx ^^^ 1)
  pure (nodes.take half, idx / 2, path ++ [value])

/-- `src/iop/blake2s_trivial_iop.rs` 251-279 `get_path` -/
def IopTree.getPath (t : IopTree) (treeIndex : ℕ) (leafs : List F) : Res (List Digest) := do
  Res.assert (t.size = t.nodes.length)
  let pair ← rd leafs (treeIndex ^^^ 1)
  let rounds ← log2Floor (t.nodes.length / 2)
  let (_, _, path) ← forN rounds 0 (t.nodes, treeIndex / 2, [hashLeaf H pair]) (fun _ s => pathStep s)
  pure path

/-- `src/iop/blake2s_trivial_iop.rs` 349-354 `TrivialBlake2sIopQuery` -/
structure IopQuery (F : Type) where
  index : ℕ
  value : F
  path : List Digest
deriving DecidableEq

/-- `src/iop/blake2s_trivial_iop.rs` 320-322 `verify_query`; `tree_index()` is `index` (the combiner
translates tree and natural indices by the identity, `src/iop/trivial_coset_combiner.rs` 44-52). -/
def verifyQuery (q : IopQuery F) (root : Digest) : Bool := IopTree.verify H root q.value q.path q.index

/-- `src/iop/blake2s_trivial_iop.rs` 324-338 `query` -/
def IopTree.query (t : IopTree) (naturalIndex : ℕ) (leafs : List F) : Res (IopQuery F) := do
  Res.assert (naturalIndex < t.size)
  Res.assert (naturalIndex < leafs.length)
  let value ← rd leafs naturalIndex
  let path ← t.getPath H naturalIndex leafs
  pure { index := naturalIndex, value := value, path := path }

/-- `src/iop/trivial_coset_combiner.rs` 31-38 `get_coset_for_natural_index` (sorted pair). -/
def cosetForNaturalIndex (naturalIndex domainSize : ℕ) : Res (List ℕ) := do
  Res.assert (naturalIndex < domainSize)
  let pair := (naturalIndex + domainSize / 2) % domainSize
  pure (sortPair naturalIndex pair)

/-- `src/iop/blake2s_trivial_iop.rs` 340-344 `PartialEq for TrivialBlake2sIOP`: the roots are compared. -/
def IopTree.eq (t t' : IopTree) : Res Bool := do
  let r ← t.getRoot
  let r' ← t'.getRoot
  pure (decide (r = r'))

end Hodor
