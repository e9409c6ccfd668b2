import Verif.Model.Fields
import Verif.Proofs.Roots

/-!
# Properties C01, C02, C03, C04, C11: integers, bytes, fields

The specification vocabulary is Mathlib's: `Nat.ofDigits 256` for the value of a
little-endian byte string, `Nat.testBit`, `Nat.Prime`, `ZMod p`, `orderOf`.
-/

namespace Vdaf

/-! ## C01 -/

/-- C01: encoding a vector never raises, has `ENCODED_SIZE * len(v)` bytes, and decodes to
the same vector.  `F` ranges over every field class of the library. -/
theorem C01_field_codec_roundtrip {F : Type} [PyField F] (v : List F) :
    ∃ b, encodeVec v = .ok b ∧ b.length = PyField.encSize F * v.length ∧
      decodeVec F b = .ok v :=
  ⟨encAll v, encodeVec_eq v, encAll_length v, decodeVec_encAll v⟩

/-- The four field classes and their encoded sizes are covered. -/
example : PyField.encSize Field64 = 8 ∧ PyField.encSize Field96 = 12 ∧
    PyField.encSize Field128 = 16 ∧ PyField.encSize Field255 = 32 := by decide

example : encodeVec [(5 : Field64), -1] =
    .ok [5, 0, 0, 0, 0, 0, 0, 0, 0, 0, 0, 0, 255, 255, 255, 255] := by decide +kernel

/-! ## C02 -/

theorem natOfLe_eq_ofDigits (b : Bytes) :
    natOfLe b = Nat.ofDigits 256 (b.map UInt8.toNat) := by
  induction b with
  | nil => rfl
  | cons a b ih => simp [natOfLe, Nat.ofDigits_cons, ih]

theorem encAll_slice {F : Type} [PyField F] (v : List F) (i : Nat) (hi : i < v.length) :
    ((encAll v).drop (i * PyField.encSize F)).take (PyField.encSize F) = encOne v[i] := by
  induction v generalizing i with
  | nil => simp at hi
  | cons x v ih =>
    cases i with
    | zero =>
      simp only [Nat.zero_mul, List.drop_zero, encAll_cons, List.getElem_cons_zero]
      rw [List.take_append_of_le_length (by rw [encOne_length])]
      rw [← encOne_length x]; exact List.take_length
    | succ i =>
      simp only [List.getElem_cons_succ]
      rw [← ih i (by simpa using hi), encAll_cons, Nat.succ_mul, Nat.add_comm,
        ← List.drop_drop, ← encOne_length x, List.drop_left]

theorem decode_exists {F : Type} [PyField F] (n : Nat) (b : Bytes)
    (hlen : b.length = n * PyField.encSize F)
    (h : ∀ i < n, natOfLe ((b.drop (i * PyField.encSize F)).take (PyField.encSize F))
      < PyField.modulus F) : ∃ v : List F, b = encAll v := by
  induction n generalizing b with
  | zero => exact ⟨[], List.length_eq_zero_iff.1 (by omega)⟩
  | succ n ih =>
    obtain ⟨v, hv⟩ := ih (b.drop (PyField.encSize F))
      (by rw [List.length_drop, hlen, Nat.succ_mul]; omega)
      (fun i hi => by
        have := h (i + 1) (by omega)
        rw [List.drop_drop]
        rwa [Nat.succ_mul, Nat.add_comm] at this)
    have h0 := h 0 (by omega)
    simp only [Nat.zero_mul, List.drop_zero] at h0
    refine ⟨((natOfLe (b.take (PyField.encSize F)) : Nat) : F) :: v, ?_⟩
    rw [encAll_cons, encOne, PyField.toNat_natCast _ h0, ← hv]
    have hl : (b.take (PyField.encSize F)).length = PyField.encSize F := by
      rw [List.length_take, hlen, Nat.succ_mul]; omega
    conv_lhs => rw [← List.take_append_drop (PyField.encSize F) b]
    congr 1
    conv_rhs => rw [← hl]
    rw [hl, ← hl, hl]
    exact (by
      have := natToLe_natOfLe (b.take (PyField.encSize F))
      rw [hl] at this
      exact this.symm)

/-- C02: decoding succeeds exactly on strings whose length is a multiple of `ENCODED_SIZE`
and all of whose chunks are little-endian numbers below `MODULUS`; the result is the list
of these numbers; re-encoding gives the input back (so encodings are unique); every failure
is a `ValueError`. -/
theorem C02_field_decode_strict {F : Type} [PyField F] (b : Bytes) :
    ((∃ v, decodeVec F b = .ok v) ↔
      (PyField.encSize F ∣ b.length ∧
        ∀ i, i * PyField.encSize F < b.length →
          Nat.ofDigits 256
            (((b.drop (i * PyField.encSize F)).take (PyField.encSize F)).map UInt8.toNat)
          < PyField.modulus F)) ∧
    (∀ v, decodeVec F b = .ok v →
      encodeVec v = .ok b ∧
      ∀ i (hi : i < v.length), PyField.toNat v[i] =
        Nat.ofDigits 256
          (((b.drop (i * PyField.encSize F)).take (PyField.encSize F)).map UInt8.toNat)) ∧
    (∀ e, decodeVec F b = .error e → ∃ msg, e = .value msg) := by
  have hpos := PyField.encSize_pos (F := F)
  have hval : ∀ v, decodeVec F b = .ok v → ∀ i (hi : i < v.length), PyField.toNat v[i] =
        Nat.ofDigits 256
          (((b.drop (i * PyField.encSize F)).take (PyField.encSize F)).map UInt8.toNat) := by
    intro v hv i hi
    have hb := decodeVec_ok hv
    rw [← natOfLe_eq_ofDigits, hb, encAll_slice v i hi]
    exact (fromLe_encOne v[i]).symm
  refine ⟨⟨?_, ?_⟩, ?_, ?_⟩
  · rintro ⟨v, hv⟩
    have hb := decodeVec_ok hv
    have hl : b.length = PyField.encSize F * v.length := by rw [hb, encAll_length]
    refine ⟨⟨_, hl⟩, ?_⟩
    intro i hi
    rw [hl, Nat.mul_comm] at hi
    have hi' : i < v.length := lt_of_mul_lt_mul_left hi (Nat.zero_le _)
    rw [← hval v hv i hi']
    exact PyField.toNat_lt _
  · rintro ⟨⟨n, hn⟩, h⟩
    obtain ⟨v, hv⟩ := decode_exists (F := F) n b (by rw [hn, Nat.mul_comm]) (by
      intro i hi
      rw [natOfLe_eq_ofDigits]
      apply h
      rw [hn, Nat.mul_comm]
      exact Nat.mul_lt_mul_of_pos_left hi hpos)
    exact ⟨v, by rw [hv, decodeVec_encAll]⟩
  · intro v hv
    exact ⟨by rw [encodeVec_eq, ← decodeVec_ok hv], hval v hv⟩
  · intro e he; exact decodeVec_err he

/-- A non-canonical encoding (the modulus itself) is rejected, `MODULUS - 1` accepted. -/
example : decodeVec Field64 [1, 0, 0, 0, 255, 255, 255, 255]
    = .error (.value "modulus overflow") ∧
    decodeVec Field64 [0, 0, 0, 0, 255, 255, 255, 255] = .ok [-1] := by
  constructor <;> decide +kernel

/-! ## C03 -/

/-- C03: the four moduli are prime. -/
theorem C03_moduli_prime :
    Nat.Prime (2 ^ 32 * 4294967295 + 1) ∧ Nat.Prime (2 ^ 64 * 4294966555 + 1) ∧
    Nat.Prime (2 ^ 66 * 4611686018427387897 + 1) ∧ Nat.Prime (2 ^ 255 - 19) :=
  ⟨PrimeMod.prime (p := p64), PrimeMod.prime (p := p96), PrimeMod.prime (p := p128),
   PrimeMod.prime (p := p255)⟩

/-- C03: for a prime modulus, the Python operations (on the representative `val`) are the
field operations of the integers modulo `p`; results are canonical; `inv` is the
multiplicative inverse. -/
theorem C03_field_arithmetic {p : Nat} [PrimeMod p] (a b : Fe p) (n : Nat) :
    a.val < p ∧
    ((a + b).val : ZMod p) = a.val + b.val ∧
    ((a - b).val : ZMod p) = a.val - b.val ∧
    ((a * b).val : ZMod p) = a.val * b.val ∧
    ((-a).val : ZMod p) = -(a.val : ZMod p) ∧
    ((a ^ n).val : ZMod p) = (a.val : ZMod p) ^ n ∧
    ((a⁻¹).val : ZMod p) = (a.val : ZMod p)⁻¹ ∧
    (a.val ≠ 0 → (a * a⁻¹).val = 1) ∧
    (a = b ↔ (a.val : ZMod p) = b.val) := by
  refine ⟨a.lt, Fe.toZ_add a b, Fe.toZ_sub a b, Fe.toZ_mul a b, Fe.toZ_neg a, Fe.toZ_pow a n,
    Fe.toZ_inv a, ?_, ⟨fun h => by rw [h], fun h => Fe.toZ_inj h⟩⟩
  intro ha
  have h0 : a ≠ 0 := by
    intro h; apply ha; rw [h]; exact Nat.zero_mod _
  rw [mul_inv_cancel₀ h0]
  exact Nat.mod_eq_of_lt (lt_trans one_lt_two PrimeMod.two_lt)

/-- C03: the constructor accepts exactly the integers in `(-MODULUS, MODULUS)` and yields
the element congruent to its argument. -/
theorem C03_constructor {F : Type} [PyField F] (z : Int) :
    ((∃ x, ofInt F z = .ok x) ↔ -(PyField.modulus F : Int) < z ∧ z < PyField.modulus F) ∧
    (∀ x, ofInt F z = .ok x → (PyField.toNat x : Int) = z % PyField.modulus F) := by
  have hval : ∀ x, ofInt F z = .ok x → (PyField.toNat x : Int) = z % PyField.modulus F := by
    intro x hx
    unfold ofInt at hx
    have hm : (0 : Int) < PyField.modulus F := by exact_mod_cast modulus_pos F
    split at hx
    · split at hx
      · cases hx
        have hnn := Int.emod_nonneg z (ne_of_gt hm)
        have hlt := Int.emod_lt_of_pos z hm
        have hc : ((z : F)) = (((z % PyField.modulus F).toNat : Nat) : F) := by
          rw [← Int.cast_natCast, Int.toNat_of_nonneg hnn]
          conv_lhs => rw [← Int.emod_add_mul_ediv z (PyField.modulus F)]
          push_cast
          rw [CharP.cast_eq_zero F]; simp
        rw [hc, PyField.toNat_natCast _ (by omega), Int.toNat_of_nonneg hnn]
      · cases hx
    · cases hx
  refine ⟨?_, hval⟩
  unfold ofInt
  constructor
  · rintro ⟨x, hx⟩
    split at hx
    · split at hx
      · exact ⟨by omega, by omega⟩
      · cases hx
    · cases hx
  · rintro ⟨h1, h2⟩
    exact ⟨(z : F), by rw [if_pos h2, if_pos h1]⟩

example : ofInt Field64 (-1) = .ok ⟨2 ^ 32 * 4294967295, by decide⟩ := by decide +kernel

/-! ## C04 -/

/-- C04: `gen()` has order exactly `GEN_ORDER`, a power of two dividing `MODULUS - 1`;
`nth_root(k)` has order exactly `2^k`; `nth_root_powers(2^k)` lists `2^k` distinct elements,
the powers of `nth_root(k)` starting with 1, each a `2^k`-th root of unity. -/
theorem C04_roots_of_unity (F : Type) [NttField F] :
    orderOf (NttField.gen : F) = NttField.genOrder F ∧
    NttField.genOrder F ∣ PyField.modulus F - 1 ∧
    ∃ L, 0 < L ∧ NttField.genOrder F = 2 ^ L ∧
    ∀ k, k ≤ L →
      orderOf (nthRoot F k) = 2 ^ k ∧
      ∃ l, nthRootPowers F (2 ^ k) = .ok l ∧ l.length = 2 ^ k ∧ l.Nodup ∧ l[0]? = some 1 ∧
        (∀ i (h : i < l.length), l[i] = nthRoot F k ^ i ∧ l[i] ^ 2 ^ k = 1) := by
  refine ⟨NttField.orderOf_gen, genOrder_dvd F, NttField.logOrder F, NttField.logOrder_pos,
    NttField.genOrder_eq, ?_⟩
  intro k hk
  refine ⟨nthRoot_order hk, _, nthRootPowers_eq k, by simp, ?_, ?_, ?_⟩
  · rw [List.nodup_map_iff_inj_on List.nodup_range]
    intro i hi j hj h
    exact nthRoot_pow_inj hk (by simpa using hi) (by simpa using hj) h
  · have : 0 < 2 ^ k := by positivity
    simp [this]
  · intro i hi
    simp only [List.getElem_map, List.getElem_range]
    refine ⟨trivial, ?_⟩
    rw [← pow_mul, Nat.mul_comm, pow_mul, nthRoot_pow_eq_one hk, one_pow]

/-- The constants of the three NTT fields. -/
example : NttField.genOrder Field64 = 2 ^ 32 ∧ NttField.genOrder Field96 = 2 ^ 64 ∧
    NttField.genOrder Field128 = 2 ^ 66 ∧
    (NttField.gen : Field64) = 7 ^ 4294967295 := by
  refine ⟨rfl, rfl, rfl, rfl⟩

/-! ## C11 -/

/-- C11: `to_le_bytes` succeeds iff `0 ≤ val < 2^(8*length)` (otherwise `ValueError`), the
result has `length` bytes whose little-endian value is `val`. -/
theorem C11_to_le_bytes (val : Int) (length : Nat) :
    ((∃ b, toLeBytes val length = .ok b) ↔ 0 ≤ val ∧ val < 2 ^ (8 * length)) ∧
    (∀ b, toLeBytes val length = .ok b → b.length = length ∧
      (Nat.ofDigits 256 (b.map UInt8.toNat) : Int) = val ∧ (fromLeBytes b : Int) = val) ∧
    (∀ e, toLeBytes val length = .error e → ∃ m, e = .value m) := by
  refine ⟨⟨?_, ?_⟩, ?_, ?_⟩
  · rintro ⟨b, hb⟩
    unfold toLeBytes at hb
    split at hb
    · cases hb
    · omega
  · rintro ⟨h1, h2⟩
    unfold toLeBytes
    rw [if_neg (by omega)]
    exact ⟨_, rfl⟩
  · intro b hb
    refine ⟨toLeBytes_length hb, ?_, fromLe_toLe hb⟩
    have := fromLe_toLe hb
    rw [fromLeBytes, natOfLe_eq_ofDigits] at this
    exact_mod_cast this
  · intro e he
    unfold toLeBytes at he
    split at he
    · cases he; exact ⟨_, rfl⟩
    · cases he

/-- C11: `to_be_bytes` likewise, most significant byte first. -/
theorem C11_to_be_bytes (val : Int) (length : Nat) :
    ((∃ b, toBeBytes val length = .ok b) ↔ 0 ≤ val ∧ val < 2 ^ (8 * length)) ∧
    (∀ b, toBeBytes val length = .ok b → b.length = length ∧
      (Nat.ofDigits 256 (b.reverse.map UInt8.toNat) : Int) = val ∧ (fromBeBytes b : Int) = val) ∧
    (∀ e, toBeBytes val length = .error e → ∃ m, e = .value m) := by
  refine ⟨⟨?_, ?_⟩, ?_, ?_⟩
  · rintro ⟨b, hb⟩
    unfold toBeBytes at hb
    split at hb
    · cases hb
    · omega
  · rintro ⟨h1, h2⟩
    unfold toBeBytes
    rw [if_neg (by omega)]
    exact ⟨_, rfl⟩
  · intro b hb
    refine ⟨toBeBytes_length hb, ?_, fromBe_toBe hb⟩
    have := fromBe_toBe hb
    rw [fromBeBytes, natOfLe_eq_ofDigits] at this
    exact_mod_cast this
  · intro e he
    unfold toBeBytes at he
    split at he
    · cases he; exact ⟨_, rfl⟩
    · cases he

/-- C11: parsing and re-serialising a byte string gives it back. -/
theorem C11_bytes_int_bytes (b : Bytes) :
    toLeBytes (fromLeBytes b) b.length = .ok b ∧ toBeBytes (fromBeBytes b) b.length = .ok b :=
  ⟨toLe_fromLe b, toBe_fromBe b⟩

example : toLeBytes 258 2 = .ok [2, 1] ∧ toBeBytes 258 2 = .ok [1, 2] ∧
    toLeBytes 65536 2 = .error (.value "bad to_le_bytes call") := by decide +kernel

/-- C11: `bitrev(k, n)` fails (assertion) iff `n ≥ 2^k`; otherwise it returns the number
below `2^k` whose bit `i` is bit `k-1-i` of `n`, and applying it twice gives `n`. -/
theorem C11_bitrev (k n : Nat) :
    (n < 2 ^ k → ∃ m, bitrev k n = .ok m ∧ m < 2 ^ k ∧
      (∀ i, i < k → m.testBit i = n.testBit (k - 1 - i)) ∧ bitrev k m = .ok n) ∧
    (2 ^ k ≤ n → ∃ msg, bitrev k n = .error (.assertion msg)) := by
  constructor
  · intro h
    refine ⟨brev k n, bitrev_eq h, brev_lt k n, fun i hi => brev_testBit k n i hi, ?_⟩
    rw [bitrev_eq (brev_lt k n), brev_brev k n h]
  · intro h
    unfold bitrev
    simp only [if_neg (Nat.not_lt.2 h)]
    exact ⟨_, rfl⟩

example : bitrev 4 3 = .ok 12 := by rw [bitrev_eq (by norm_num)]; decide

/-- C11: `next_power_of_2(n)` is the least power of two that is at least `n`. -/
theorem C11_next_power_of_2 (n : Nat) (hn : 0 < n) :
    ∃ k, nextPowerOf2 n = .ok (2 ^ k) ∧ n ≤ 2 ^ k ∧ ∀ j, n ≤ 2 ^ j → 2 ^ k ≤ 2 ^ j :=
  ⟨Nat.size (n - 1), nextPowerOf2_of_pos hn, le_np2, fun _ hj => np2_le hj⟩

/-- C11: `assert_power_of_2` returns the logarithm, and raises on everything else. -/
theorem C11_assert_power_of_2 (n k : Nat) : assertPowerOf2 n = .ok k ↔ n = 2 ^ k :=
  assertPowerOf2_eq_ok

end Vdaf
