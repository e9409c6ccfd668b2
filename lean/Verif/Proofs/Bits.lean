import Verif.Model.Idpf
import Verif.Proofs.Py

/-! Packing of bits into bytes. -/

namespace Vdaf

/-- Bit `i` of a list of bits is the given one, and there is no bit beyond. -/
def bitAt (bits : List Bool) (i : ℕ) : Bool := bits[i]?.getD false

theorem bitAt_of_lt {bits : List Bool} {i : ℕ} (h : i < bits.length) : bitAt bits i = bits[i] := by
  simp [bitAt, h]

theorem bitAt_of_le {bits : List Bool} {i : ℕ} (h : bits.length ≤ i) : bitAt bits i = false := by
  simp [bitAt, h]

theorem testBit_eq (n i : ℕ) : ((n >>> i) &&& 1 != 0) = n.testBit i := by
  rw [Nat.testBit, Nat.and_comm]

theorem toNat_shift_testBit (b : Bool) (k j : ℕ) : (b.toNat <<< k).testBit j = (b && decide (j = k)) := by
  rw [Nat.testBit_shiftLeft]
  cases b
  · simp
  · rcases Nat.lt_trichotomy j k with h | h | h
    · simp [Nat.not_le.2 h, h.ne]
    · subst h; simp
    · have : j - k ≠ 0 := by omega
      simp [h.le, h.ne', Nat.testBit_lt_two_pow (Nat.one_lt_two_pow this)]

theorem packLoop (bits : List Bool) : ∃ buf,
    forFold bits.zipIdx (List.replicate ((bits.length + 7) / 8) 0) (fun buf (bit, i) => do
      let x ← getI buf (i / 8)
      setI buf (i / 8) (x ||| (bit.toNat <<< (i % 8)))) = .ok buf ∧
    buf.length = (bits.length + 7) / 8 ∧
    ∀ k (hk : k < buf.length) j, buf[k].testBit j = (decide (j < 8) && bitAt bits (8 * k + j)) := by
  obtain ⟨buf, h1, h2, h3⟩ := forFold_inv bits.zipIdx (List.replicate ((bits.length + 7) / 8) 0)
    (fun buf (bit, i) => do
      let x ← getI buf (i / 8)
      setI buf (i / 8) (x ||| (bit.toNat <<< (i % 8))))
    (fun n buf => buf.length = (bits.length + 7) / 8 ∧
      ∀ k (hk : k < buf.length) j, buf[k].testBit j =
        (decide (j < 8) && decide (8 * k + j < n) && bitAt bits (8 * k + j)))
    ⟨by simp, by simp⟩ (by
      rintro i hi buf ⟨hl, hb⟩
      simp only [List.length_zipIdx] at hi
      simp only [List.getElem_zipIdx, Nat.zero_add]
      have hk : i / 8 < buf.length := by omega
      rw [getI_of_lt hk]
      simp only [Except.ok_bind']
      rw [setI_of_lt hk]
      refine ⟨_, rfl, by simpa using hl, fun k hk' j => ?_⟩
      rw [List.length_set] at hk'
      rw [List.getElem_set]
      split
      · next h =>
        subst h
        rw [Nat.testBit_or, hb _ hk, toNat_shift_testBit]
        by_cases hj : j = i % 8
        · have h8 : 8 * (i / 8) + j = i := by omega
          have : j < 8 := by omega
          simp [h8, this, hj.symm, bitAt_of_lt hi]
        · by_cases h1 : j < 8
          · have : (8 * (i / 8) + j < i + 1) ↔ (8 * (i / 8) + j < i) := by omega
            simp [hj, this]
          · simp [h1, hj]
      · next h =>
        rw [hb _ hk']
        by_cases h1 : j < 8
        · have : (8 * k + j < i + 1) ↔ (8 * k + j < i) := by omega
          simp [this]
        · simp [h1])
  refine ⟨buf, h1, h2, fun k hk j => ?_⟩
  rw [h3]
  simp only [List.length_zipIdx]
  by_cases h : 8 * k + j < bits.length
  · simp [h]
  · simp [bitAt_of_le (Nat.le_of_not_lt h)]

theorem packBits_ok (bits : List Bool) : ∃ b, packBits bits = .ok b ∧
    b.length = (bits.length + 7) / 8 ∧
    ∀ k (hk : k < b.length) j, b[k].toNat.testBit j = (decide (j < 8) && bitAt bits (8 * k + j)) := by
  obtain ⟨buf, h1, h2, h3⟩ := packLoop bits
  unfold packBits
  simp only
  rw [h1]
  simp only [Except.ok_bind']
  have hlt : ∀ x ∈ buf, x < 256 := by
    intro x hx
    obtain ⟨k, hk, rfl⟩ := List.mem_iff_getElem.1 hx
    refine Nat.lt_pow_two_of_testBit (n := 8) _ fun j hj => ?_
    rw [h3]
    simp [Nat.not_lt.2 hj]
  rw [mapRes_pure _ UInt8.ofNat _ fun x hx => if_pos (hlt x hx)]
  refine ⟨_, rfl, by simpa using h2, fun k hk j => ?_⟩
  rw [List.length_map] at hk
  rw [List.getElem_map, UInt8.toNat_ofNat_of_lt' (hlt _ (List.getElem_mem hk)), h3]

theorem unpackBits_eq_ok (b : Bytes) (n : ℕ) (bits : List Bool) :
    unpackBits b n = .ok bits ↔ 0 < n ∧ bits.length = n ∧ b.length = (n + 7) / 8 ∧
      ∀ k (hk : k < b.length) j, b[k].toNat.testBit j = (decide (j < 8) && bitAt bits (8 * k + j)) := by
  unfold unpackBits
  constructor
  · intro h
    rw [Except.bind_eq_ok] at h
    obtain ⟨cs, h1, h⟩ := h
    cases hl : b.getLast? with
    | none => rw [hl] at h; cases h
    | some last =>
      rw [hl] at h
      simp only at h
      rw [Except.bind_eq_ok] at h
      obtain ⟨u, h2, h⟩ := h
      cases h
      rw [raiseIf_eq_ok, decide_eq_false_iff_not, not_or, not_not, not_not] at h2
      obtain ⟨h2, h3⟩ := h2
      have hb : b ≠ [] := by rintro rfl; simp at hl
      have hbl : 0 < b.length := List.length_pos_of_ne_nil hb
      have hn : 0 < n := by omega
      have hcl : bits.length = n := by simpa using mapRes_length h1
      refine ⟨hn, hcl, h2.symm, fun k hk j => ?_⟩
      by_cases hj : j < 8
      · by_cases hkj : 8 * k + j < n
        · have := mapRes_getElem h1 (8 * k + j) (by simpa using hkj) (by omega)
          simp only [List.getElem_range] at this
          rw [show (8 * k + j) / 8 = k by omega, show (8 * k + j) % 8 = j by omega, getI_of_lt hk] at this
          simp only [Except.ok_bind', Except.pure_eq', Except.ok.injEq] at this
          rw [testBit_eq] at this
          simp [hj, this, bitAt_of_lt (show 8 * k + j < bits.length by omega)]
        · have hkl : k = b.length - 1 := by omega
          rw [List.getLast?_eq_getElem?, ← hkl, List.getElem?_eq_getElem hk, Option.some.injEq] at hl
          rw [bitAt_of_le (by omega), Bool.and_false, hl]
          have h4 : (last.toNat >>> ((n + 7) % 8 + 1)).testBit (j - ((n + 7) % 8 + 1)) = false := by
            rw [h3]; simp
          rw [Nat.testBit_shiftRight] at h4
          rwa [show (n + 7) % 8 + 1 + (j - ((n + 7) % 8 + 1)) = j by omega] at h4
      · rw [decide_eq_false hj, Bool.false_and]
        exact Nat.testBit_lt_two_pow (Nat.lt_of_lt_of_le (UInt8.toNat_lt _)
          (Nat.pow_le_pow_right (by decide) (Nat.le_of_not_lt hj)))
  · rintro ⟨hn, hc, hl, hb⟩
    rw [mapRes_pure _ (bitAt bits) _ fun i hi => ?_]
    · have hlast : b.getLast? = some (b[b.length - 1]'(by omega)) := by
        rw [List.getLast?_eq_getElem?, List.getElem?_eq_getElem]
      simp only [Except.ok_bind']
      rw [hlast]
      simp only
      rw [raiseIf_of_not (by
        rw [not_or, not_not, not_not]
        refine ⟨hl.symm, Nat.eq_of_testBit_eq fun j => ?_⟩
        rw [Nat.testBit_shiftRight, hb, bitAt_of_le (by omega)]
        simp)]
      simp only [Except.ok_bind', Except.pure_eq', Except.ok.injEq]
      apply List.ext_getElem
      · simp [hc]
      · intro i h1 h2
        simp [bitAt_of_lt h2]
    · have hi' : i < n := by simpa using hi
      have hk : i / 8 < b.length := by omega
      rw [getI_of_lt hk]
      simp only [Except.ok_bind', Except.pure_eq', Except.ok.injEq]
      rw [testBit_eq, hb _ hk, show 8 * (i / 8) + i % 8 = i by omega]
      simp [Nat.mod_lt]

theorem unpackBits_packBits (bits : List Bool) (h : bits ≠ []) :
    ∃ b, packBits bits = .ok b ∧ unpackBits b bits.length = .ok bits := by
  obtain ⟨b, h1, h2, h3⟩ := packBits_ok bits
  exact ⟨b, h1, (unpackBits_eq_ok ..).2 ⟨List.length_pos_of_ne_nil h, rfl, h2, h3⟩⟩

theorem packBits_unpackBits {b : Bytes} {n : ℕ} {bits : List Bool} (h : unpackBits b n = .ok bits) :
    packBits bits = .ok b ∧ bits.length = n := by
  obtain ⟨h1, h2, h3, h4⟩ := (unpackBits_eq_ok ..).1 h
  obtain ⟨c, g1, g2, g3⟩ := packBits_ok bits
  refine ⟨?_, h2⟩
  rw [g1]
  congr 1
  apply List.ext_getElem
  · rw [g2, h3, h2]
  · intro k hk hk'
    apply UInt8.toNat.inj
    refine Nat.eq_of_testBit_eq fun j => ?_
    rw [g3 _ hk, h4 _ hk']

end Vdaf
