import Mathlib.Algebra.Ring.Int.Defs
import Mathlib.Data.List.Basic

/-!
# Model of `tt_sketch/drm/fast_lazy_gaussian.pyx`

C integers are bit vectors of their real width (`uint64` = `BitVec 64`, `int` = `BitVec 32`, both
wrapping); doubles made from hashed bits are kept as their bit pattern together with the exact
dyadic value it denotes.
-/

namespace TTS.Hash

/-- `uint64` -/
abbrev U64 := BitVec 64

/-- `fast_lazy_gaussian.pyx` 30-37: body of the loop of `hash_int_c` for one value. -/
def hash1 (r : U64) : U64 :=
  let r := r + 0x4BE98134A5976FD3#64
  let r := r ^^^ (r >>> 30)
  let r := r * 0xBF58476D1CE4E5B9#64
  let r := r ^^^ (r >>> 27)
  let r := r * 0x94D049BB133111EB#64
  r ^^^ (r >>> 31)

/-- `fast_lazy_gaussian.pyx` 14-37: `hash_int_c(vals)` (in place; here the new contents). -/
def hashInt (vals : List U64) : List U64 := vals.map hash1

/-- `fast_lazy_gaussian.pyx` 68-71: one iteration of the loop over the dimensions; `prod` is a C
`int` and is converted to `uint64` (sign extension) in the product, and `prod *= shape[i]` is
computed in `uint64` and truncated to `int`. -/
def flatStep (st : List U64 × BitVec 32) (row : List U64 × U64) : List U64 × BitVec 32 :=
  (List.zipWith (fun f i => f + i * st.2.signExtend 64) st.1 row.1,
   (st.2.signExtend 64 * row.2).truncate 32)

/-- `fast_lazy_gaussian.pyx` 60-71: `indices_flat` from the rows of the `(n_dim, N)` index array
and the shape.  Simplification: the array has at least one row (numpy guarantees it here). -/
def indicesFlat (rows : List (List U64)) (shape : List U64) : List U64 :=
  match rows, shape with
  | r0 :: rows, s0 :: shape => ((rows.zip shape).foldl flatStep (r0, s0.truncate 32)).1
  | _, _ => []

/-- `fast_lazy_gaussian.pyx` 73-79: `size_salt`, hashed column numbers plus the seed. -/
def sizeSalt (rankMin rankMax : ℕ) (seed : U64) : List U64 :=
  (hashInt ((List.range (rankMax - rankMin)).map fun j => BitVec.ofNat 64 (rankMin + j))).map
    (· + seed)

/-- `fast_lazy_gaussian.pyx` 91-101: set the first three bits to `001`. -/
def mask (h : U64) : U64 := (h ||| 0x2000000000000000#64) &&& 0x3FFFFFFFFFFFFFFF#64

/-- `fast_lazy_gaussian.pyx` 53-105: `_inds_to_rand_double`: bit patterns of the doubles, as the
flat array of length `N * rank` (row `i` occupies `[i*rank, (i+1)*rank)`). -/
def indsToRandBits (rows : List (List U64)) (shape : List U64) (rankMin rankMax : ℕ)
    (seed : U64) : List U64 :=
  let large := (indicesFlat rows shape).flatMap fun f =>
    (sizeSalt rankMin rankMax seed).map fun s => f + s
  (hashInt large).map mask

/-- Low 52 bits: the stored significand of an IEEE double. -/
def sigBits (h : U64) : ℕ := h.toNat % 2 ^ 52

/-- Bits 52..62: the biased exponent of an IEEE double. -/
def expBits (h : U64) : ℕ := (h.toNat / 2 ^ 52) % 2 ^ 11

/-- `frexp` exponent of a normal double (value `(1+s/2^52) * 2^(E-1023)` = `m * 2^e`, `m∈[1/2,1)`). -/
def frexpExp (h : U64) : ℤ := (expBits h : ℤ) - 1022

/-- `frexp(x, &e) * 2 - 1` (lines 48, 144) scaled by `2^52`: the mantissa is
`(1 + s/2^52)/2`, so the result is exactly `s / 2^52`. -/
def unifNum (h : U64) : ℕ := sigBits h

/-- `fast_lazy_gaussian.pyx` 40-50, 108-119: `_inds_to_normal`; `ndtri` is a parameter (applied to
the number `unifNum / 2^52`). -/
def indsToNormalFlat {K : Type*} (ndtri : ℕ → K) (rows : List (List U64)) (shape : List U64)
    (rankMin rankMax : ℕ) (seed : U64) : List K :=
  (indsToRandBits rows shape rankMin rankMax seed).map fun h => ndtri (unifNum h)

/-- `ndarray.reshape(N, rank)` of a flat list. -/
def chunk {α : Type*} (rank : ℕ) : ℕ → List α → List (List α)
  | 0, _ => []
  | N + 1, l => l.take rank :: chunk rank N (l.drop rank)

/-- `np.mod(seed, 2**63, dtype=np.uint64)` (lines 174, 199). -/
def seedMod (seed : ℕ) : U64 := BitVec.ofNat 64 (seed % 2 ^ 63)

/-- Number of columns `N = indices.shape[1]`. -/
def numInds (rows : List (List U64)) : ℕ := (rows.headD []).length

/-- `fast_lazy_gaussian.pyx` 183-202: `inds_to_normal`, an `(N, rank)` array as list of rows. -/
def indsToNormal {K : Type*} (ndtri : ℕ → K) (rows : List (List U64)) (shape : List U64)
    (rankMin rankMax seed : ℕ) : List (List K) :=
  chunk (rankMax - rankMin) (numInds rows)
    (indsToNormalFlat ndtri rows shape rankMin rankMax (seedMod seed))

/-- `(e % 2) * 2 - 1` (line 145); Cython's `%` on C ints has python semantics. -/
def signOf (h : U64) : ℤ := (frexpExp h % 2) * 2 - 1

/-- `fast_lazy_gaussian.pyx` 148-153: one swap; `rand_num = int(u*(rank-j)+j)` with `u = m/2^52`,
in exact arithmetic (the rounding of the double product and sum is not modelled). -/
def swapStep (rank : ℕ) (row : List ℤ) (jm : ℕ × ℕ) : List ℤ :=
  let j := jm.1
  let randNum := (jm.2 * (rank - j) + j * 2 ^ 52) / 2 ^ 52
  let temp := row.getD j 0
  let row := row.set j (row.getD randNum 0)
  row.set randNum temp

/-- `fast_lazy_gaussian.pyx` 140-153: one row `i` of `_inds_to_sparse_sign`, from its `nnz` hashed
doubles. Only meaningful for `nnz <= rank` (otherwise the C code writes past the row). -/
def signRow (rank : ℕ) (bits : List U64) : List ℤ :=
  let row := bits.map signOf ++ List.replicate (rank - bits.length) 0
  ((List.range bits.length).zip (bits.map unifNum)).foldl (swapStep rank) row

/-- `fast_lazy_gaussian.pyx` 156-180: `inds_to_sparse_sign`. -/
def indsToSparseSign (rows : List (List U64)) (shape : List U64)
    (rank rankMin rankMax nnz seed : ℕ) : List (List ℤ) :=
  let nums := (chunk nnz (numInds rows) (indsToRandBits rows shape 0 nnz (seedMod seed))).map
    (signRow rank)
  nums.map fun row => (row.take rankMax).drop rankMin

end TTS.Hash
