import Verif.Proofs.PoplarGood

/-! Adding a mask to some bytes. -/

set_option linter.unusedSectionVars false

namespace Vdaf.PO
open Spec (bytesAt clearBit lowBit)

def mix (d x : Bytes) : Bytes := x.mapIdx fun i v => v ^^^ d.getD i 0

/-- The mask, from position `off` on -/
def shiftB (off : ℕ) (d : Bytes) (i : ℕ) : UInt8 := if off ≤ i then d.getD (i - off) 0 else 0

def mixAt (off : ℕ) (d x : Bytes) : Bytes := x.mapIdx fun i v => v ^^^ shiftB off d i

theorem mix_length (d x : Bytes) : (mix d x).length = x.length := by simp [mix]
theorem mixAt_length (off : ℕ) (d x : Bytes) : (mixAt off d x).length = x.length := by simp [mixAt]

theorem mixAt_mixAt (off : ℕ) (d x : Bytes) : mixAt off d (mixAt off d x) = x := by
  apply List.ext_getElem
  · simp [mixAt]
  · intro i h1 h2
    simp [mixAt, UInt8.xor_assoc]

theorem mix_inj {d d' x : Bytes} (h : d.length = d'.length) (hx : d.length ≤ x.length) (e : mix d x = mix d' x) : d = d' := by
  refine List.ext_getElem h fun i h1 h2 => ?_
  have := congrArg (fun l => l[i]?) e
  have hi : i < x.length := by omega
  simp only [mix, List.getElem?_mapIdx, List.getElem?_eq_getElem hi, Option.map_some, Option.some.injEq,
    List.getD_eq_getElem?_getD, List.getElem?_eq_getElem h1, List.getElem?_eq_getElem h2, Option.getD_some] at this
  exact (UInt8.xor_right_inj _).1 this

theorem mix_cons (d : UInt8) (ds : Bytes) (x : UInt8) (xs : Bytes) : mix (d :: ds) (x :: xs) = (x ^^^ d) :: mix ds xs := by
  simp [mix, List.mapIdx_cons]

theorem mix_xor {d a c : Bytes} : xor (mix d a) c = mix d (xor a c) := by
  apply List.ext_getElem
  · simp [mix, xor]
  · intro i h1 h2
    simp only [mix, xor, List.getElem_zipWith, List.getElem_mapIdx]
    rw [UInt8.xor_assoc, UInt8.xor_assoc, UInt8.xor_comm (d.getD i 0)]

theorem even_xor : ∀ d b : UInt8, d.toNat % 2 = 0 → (b ^^^ d).toNat % 2 = b.toNat % 2 := by
  intro d b h
  rw [UInt8.toNat_xor]
  have := Nat.xor_mod_two_eq_one (a := b.toNat) (b := d.toNat)
  omega

theorem mix_nil (x : Bytes) : mix [] x = x := by
  apply List.ext_getElem
  · simp [mix]
  · intro i h1 h2; simp [mix]

theorem and_xor (a b c : UInt8) : (a ^^^ b) &&& c = (a &&& c) ^^^ (b &&& c) := by
  apply UInt8.toNat_inj.1
  rw [UInt8.toNat_and, UInt8.toNat_xor, UInt8.toNat_xor, UInt8.toNat_and, UInt8.toNat_and, Nat.and_xor_distrib_right]

theorem clear_eq : ∀ b : UInt8, UInt8.ofNat (b.toNat / 2 * 2) = b &&& 254 := by
  intro b
  obtain ⟨i, rfl⟩ := byteEquiv.surjective b
  revert i
  decide +kernel

theorem mix_lowBit {d : Bytes} (hd : lowBit d = false) (x : Bytes) : lowBit (mix d x) = lowBit x := by
  cases x with
  | nil => rfl
  | cons x xs =>
    cases d with
    | nil => rw [mix_nil]
    | cons d ds =>
      rw [lowBit_cons] at hd
      rw [mix_cons, lowBit_cons, lowBit_cons, even_xor d x (by simpa using hd)]

theorem mix_clearBit {d : Bytes} (hd : lowBit d = false) (x : Bytes) : clearBit (mix d x) = mix d (clearBit x) := by
  cases x with
  | nil => rfl
  | cons x xs =>
    cases d with
    | nil => rw [mix_nil, mix_nil]
    | cons d ds =>
      have h1 : clearBit (d :: ds) = d :: ds := clearBit_of_lowBit hd
      rw [clearBit_cons, clear_eq] at h1
      have h2 : d &&& 254 = d := (List.cons.inj h1).1
      rw [mix_cons, clearBit_cons, clearBit_cons, mix_cons, clear_eq, clear_eq, and_xor, h2]

theorem bytesAt_mix (s : Str) (off : ℕ) (d : Bytes) (n : ℕ) : bytesAt (fun i => s i ^^^ shiftB off d i) off n = mix d (bytesAt s off n) := by
  apply List.ext_getElem
  · simp [bytesAt, mix]
  · intro i h1 h2
    simp [bytesAt, mix, shiftB]

theorem bytesAt_mix_off (s : Str) {off : ℕ} {d : Bytes} {pos n : ℕ} (h : pos + n ≤ off ∨ off + d.length ≤ pos) :
    bytesAt (fun i => s i ^^^ shiftB off d i) pos n = bytesAt s pos n := by
  refine bytesAt_agree fun i h1 h2 => ?_
  have : shiftB off d i = 0 := by
    unfold shiftB
    split
    · rw [List.getD_eq_getElem?_getD, List.getElem?_eq_none (by omega)]; rfl
    · rfl
  rw [this, UInt8.xor_zero]

theorem shiftB_zero {off : ℕ} {d : Bytes} {i : ℕ} (h : i < off ∨ off + d.length ≤ i) : shiftB off d i = 0 := by
  unfold shiftB
  split
  · rw [List.getD_eq_getElem?_getD, List.getElem?_eq_none (by omega)]; rfl
  · rfl

theorem slice_mixAt (off : ℕ) (d x : Bytes) (c : ℕ) : slice (mixAt off d x) off c = mix d (slice x off c) := by
  apply List.ext_getElem
  · simp [slice, mix, mixAt]
  · intro i h1 h2
    simp [slice, mix, mixAt, shiftB]

theorem slice_mixAt_off {off : ℕ} {d : Bytes} (x : Bytes) {a c : ℕ} (h : c ≤ off ∨ off + d.length ≤ a) :
    slice (mixAt off d x) a c = slice x a c := by
  apply List.ext_getElem
  · simp [slice, mixAt]
  · intro i h1 h2
    have : i < c - a := by simp [slice] at h2; omega
    simp only [slice, mixAt, List.getElem_drop, List.getElem_take, List.getElem_mapIdx]
    rw [shiftB_zero (by omega), UInt8.xor_zero]

end Vdaf.PO
