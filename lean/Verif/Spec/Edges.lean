import Verif.Spec.Rule
import Verif.Model.Range
/-!
# The cut rules of the algorithms, in closed form

No rolling state here: every rule is a predicate on the bytes `p` of the current chunk (and, for the two
algorithms that look across cuts, on what came before). Parameters are plain numbers and functions.
-/

namespace HashRoll.Spec

/-- The last `n` bytes of `p` (all of `p` if it is shorter). -/
def lastN (n : Nat) (p : Bytes) : Bytes := p.drop (p.length - n)

/-- `Σ_j F byte_j j`, where `byte_j` is the `j`-th most recent byte of `p` (`j = 0`: the newest). -/
def wsum {w : Nat} (F : UInt8 → Nat → BitVec w) (p : Bytes) : BitVec w :=
  (p.reverse.zipIdx.map fun x => F x.1 x.2).sum

/-- `xor_j F byte_j j` -/
def wxor {w : Nat} (F : UInt8 → Nat → BitVec w) (p : Bytes) : BitVec w :=
  (p.reverse.zipIdx.map fun x => F x.1 x.2).foldr (· ^^^ ·) 0

/-- a byte as a word -/
def word (w : Nat) (b : UInt8) : BitVec w := b.toBitVec.setWidth w

/-! ## gear -/

/-- `Σ_j G(byte_j) * 2^j` in `w`-bit arithmetic -/
def gearSum {w : Nat} (G : UInt8 → BitVec w) (p : Bytes) : BitVec w := wsum (fun b j => G b <<< j) p

def gearEdge (G : UInt8 → BitVec 32) (mask xxx : BitVec 32) (p : Bytes) : Prop :=
  gearSum G p &&& mask = xxx

/-! ## fastcdc -/

/-- The fingerprint (of the bytes after `min`) matches at the last byte of `p`. -/
def fastHit (G : UInt8 → BitVec 64) (min normal : Nat) (p : Bytes) : Prop :=
  gearSum G (p.drop min) &&& (if p.length ≤ normal then 0x0003590703530000 else 0x0000d90003530000) = 0

/-- Rule of `find_chunk_edge`: the matching byte belongs to the chunk, forced cut at `max + 1`. -/
def fastFceEdge (G : UInt8 → BitVec 64) (min normal max : Nat) (p : Bytes) : Prop :=
  min < p.length ∧ (max < p.length ∨ fastHit G min normal p)

/-- Rule of one-byte pushes: the matching byte belongs to the chunk, forced cut at `max`. -/
def fastByteEdge (G : UInt8 → BitVec 64) (min normal max : Nat) (p : Bytes) : Prop :=
  min < p.length ∧ (max ≤ p.length ∨ fastHit G min normal p)

/-- Rule of `push` with re-pushing: the chunk ends before the matching byte, forced cut at `max`. -/
def fastIncrRule (G : UInt8 → BitVec 64) (min normal max : Nat) : Rule := fun _ data n =>
  min ≤ n ∧ n ≤ max ∧ n ≤ data.length ∧
  (n = max ∨ n < data.length ∧ fastHit G min normal (data.take (n + 1))) ∧
  ∀ m, min ≤ m → m < n → ¬ fastHit G min normal (data.take (m + 1))

/-! ## pigz -/

def pigzHash (hit : BitVec 32) (p : Bytes) : BitVec 32 :=
  (hit <<< p.length) ^^^ wxor (fun b j => word 32 b <<< j) p

def pigzEdge (mask hit : BitVec 32) (p : Bytes) : Prop := pigzHash hit p &&& mask = hit

/-! ## ram -/

def ramEdge (w : Nat) (p : Bytes) : Prop :=
  ∃ b, p.getLast? = some b ∧ w + 1 < p.length ∧ ∀ x ∈ p.take (w + 1), x ≤ b

/-! ## gzip -/

def gzipEdge (window modulus : Nat) (p : Bytes) : Prop :=
  ((lastN window p).map UInt8.toNat).sum % 2 ^ 64 % modulus = 0

/-! ## mii -/

/-- `l` is strictly increasing -/
def Increasing (l : Bytes) : Prop := l.Pairwise (· < ·)

def miiEdge (w : Nat) (p : Bytes) : Prop :=
  1 ≤ w ∧ w + 1 ≤ p.length ∧ Increasing (lastN (w + 1) p)

/-- `MiiIncr`: after the first cut, as if a zero byte preceded the chunk. -/
def miiIncrEdge (w : Nat) (hist p : Bytes) : Prop :=
  if hist = [] then miiEdge w p else miiEdge w (0 :: p)

/-! ## zpaq -/

/-- `older`: the bytes of the chunk so far, newest first. The context of the next byte is the newest byte
(`0` at the start of a chunk); the prediction is the byte that followed the previous occurrence of that
context in the chunk (`0` if there is none). -/
def zpaqPredict (older : Bytes) : UInt8 :=
  let t := older ++ [0]
  match t.tail.findIdx? (· = t.headD 0) with
  | some j => t.getD j 0
  | none   => 0

/-- hash of the bytes (newest first) -/
def zpaqHashRev : Bytes → BitVec 32
  | []         => 0
  | c :: older =>
    (zpaqHashRev older + word 32 c + 1) * (if c = zpaqPredict older then 314159265 else 271828182)

def zpaqHash (p : Bytes) : BitVec 32 := zpaqHashRev p.reverse

/-- `n` violates the lower bound -/
def Below (b : Bound Nat) (n : Nat) : Prop :=
  match b with
  | .included a => n < a
  | .excluded a => n ≤ a
  | .unbounded  => False

/-- `n` violates the upper bound -/
def Beyond (b : Bound Nat) (n : Nat) : Prop :=
  match b with
  | .included a => a < n
  | .excluded a => a ≤ n
  | .unbounded  => False

/-- `d` is what the code adds to the chunk length before comparing it with the bounds. -/
def zpaqEdge (lo hi : Bound Nat) (maxHash : BitVec 32) (d : Nat) (p : Bytes) : Prop :=
  (zpaqHash p < maxHash ∧ ¬ Below lo (p.length + d)) ∨ Beyond hi (p.length + d)

/-! ## bup -/

/-- `31 W + Σ_{j<W} byte_j` -/
def bupS1 (W : Nat) (p : Bytes) : Nat := 31 * W + ((lastN W p).map UInt8.toNat).sum

/-- `31 W (W-1) + Σ_{j<W} (j+1) byte_j` -/
def bupS2 (W : Nat) (p : Bytes) : Nat :=
  31 * W * (W - 1) + ((lastN W p).reverse.zipIdx.map fun x => (x.2 + 1) * x.1.toNat).sum

def bupEdge (W : Nat) (p : Bytes) : Prop := bupS2 W p % 8192 = 8191

/-- `RollSumIncr` looks across cuts. -/
def bupIncrEdge (W : Nat) (hist p : Bytes) : Prop := bupEdge W (hist ++ p)

/-! ## buzhash -/

/-- The hash as computed, for any `k`: bytes older than `k` contribute twice. -/
def buzHash (k : Nat) (H : UInt8 → BitVec 32) (p : Bytes) : BitVec 32 :=
  wxor (fun b j => (H b).rotateLeft j ^^^ if j < k then 0 else (H b).rotateLeft (j - k + k % 8)) p

/-- The textbook cyclic polynomial of the last `k` bytes. -/
def buzWindow (k : Nat) (H : UInt8 → BitVec 32) (p : Bytes) : BitVec 32 :=
  wxor (fun b j => (H b).rotateLeft j) (lastN k p)

def buzEdge (k : Nat) (H : UInt8 → BitVec 32) (mask : BitVec 32) (p : Bytes) : Prop :=
  buzHash k H p &&& mask = mask

def buzIncrEdge (k : Nat) (H : UInt8 → BitVec 32) (mask : BitVec 32) (max : Nat) (p : Bytes) : Prop :=
  buzEdge k H mask p ∨ max < p.length

/-! ## zstd -/

/-- `Σ_j (byte_j + 10) * P^j` mod 2^64 -/
def zstdHash (p : Bytes) : BitVec 64 := wsum (fun b j => (word 64 b + 10) * 0xCF1BBCDCB7A56463 ^ j) p

/-- zstd looks across cuts: a cut after every stream position `> 32` whose last 32 bytes match. -/
def zstdEdge (mask : BitVec 64) (hist p : Bytes) : Prop :=
  32 < (hist ++ p).length ∧ zstdHash (lastN 32 (hist ++ p)) &&& mask = mask

end HashRoll.Spec
