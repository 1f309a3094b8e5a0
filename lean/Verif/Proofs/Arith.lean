import Mathlib.Data.BitVec
import Verif.Model.Basic
/-!
# Checked / wrapping arithmetic
-/

namespace HashRoll

theorem shl_ok {w : Nat} {prof : Profile} {x y : BitVec w} {n : Nat} (h : shl prof x n = .ok y) :
    y = x <<< (n % w) := by
  unfold shl at h
  split at h
  · rename_i hn
    cases h; rw [Nat.mod_eq_of_lt hn]
  · cases prof <;> cases h; rfl

theorem sub_ok {w : Nat} {prof : Profile} {x y z : BitVec w} (h : sub prof x y = .ok z) : z = x - y := by
  unfold sub at h
  split at h
  · cases h; rfl
  · cases prof <;> cases h; rfl

theorem add_ok {w : Nat} {prof : Profile} {x y z : BitVec w} (h : add prof x y = .ok z) : z = x + y := by
  unfold add at h
  split at h
  · cases h; rfl
  · cases prof <;> cases h; rfl

theorem mul_ok {w : Nat} {prof : Profile} {x y z : BitVec w} (h : mul prof x y = .ok z) : z = x * y := by
  unfold mul at h
  split at h
  · cases h; rfl
  · cases prof <;> cases h; rfl

theorem shl_of_lt {w : Nat} (prof : Profile) (x : BitVec w) {n : Nat} (h : n < w) :
    shl prof x n = .ok (x <<< n) := by simp [shl, h]

theorem sub_of_le {w : Nat} (prof : Profile) {x y : BitVec w} (h : y ≤ x) :
    sub prof x y = .ok (x - y) := by simp [sub, h]

theorem add_of_lt {w : Nat} (prof : Profile) {x y : BitVec w} (h : x.toNat + y.toNat < 2 ^ w) :
    add prof x y = .ok (x + y) := by simp [add, h]

theorem mul_of_lt {w : Nat} (prof : Profile) {x y : BitVec w} (h : x.toNat * y.toNat < 2 ^ w) :
    mul prof x y = .ok (x * y) := by simp [mul, h]

theorem shl_debug {w : Nat} (x : BitVec w) {n : Nat} (h : w ≤ n) :
    shl .debug x n = .error .overflow := by simp [shl, Nat.not_lt.mpr h]

theorem sub_debug {w : Nat} {x y : BitVec w} (h : ¬ y ≤ x) :
    sub .debug x y = .error .overflow := by simp [sub, h]

theorem add_debug {w : Nat} {x y : BitVec w} (h : 2 ^ w ≤ x.toNat + y.toNat) :
    add .debug x y = .error .overflow := by simp [add, Nat.not_lt.mpr h]

theorem mul_debug {w : Nat} {x y : BitVec w} (h : 2 ^ w ≤ x.toNat * y.toNat) :
    mul .debug x y = .error .overflow := by simp [mul, Nat.not_lt.mpr h]

theorem shl_release {w : Nat} (x : BitVec w) (n : Nat) :
    shl .release x n = .ok (x <<< (n % w)) := by
  unfold shl
  split
  · rename_i h; rw [Nat.mod_eq_of_lt h]
  · rfl

theorem sub_release {w : Nat} (x y : BitVec w) : sub .release x y = .ok (x - y) := by
  unfold sub; split <;> rfl

theorem add_release {w : Nat} (x y : BitVec w) : add .release x y = .ok (x + y) := by
  unfold add; split <;> rfl

theorem mul_release {w : Nat} (x y : BitVec w) : mul .release x y = .ok (x * y) := by
  unfold mul; split <;> rfl

end HashRoll
