import Verif.Proofs.IdpfCodec
import Verif.Model.Poplar1

/-! The encodings of Poplar1. -/

namespace Vdaf

/-! ### `batched` -/

theorem batched_nil {α : Type} {n : ℕ} (hn : 0 < n) : batched ([] : List α) n = [] := by
  unfold batched
  rw [List.length_nil, Nat.zero_add, Nat.div_eq_of_lt (by omega)]
  rfl

theorem batched_append {α : Type} {n : ℕ} (hn : 0 < n) {c l : List α} (hc : c.length = n) :
    batched (c ++ l) n = c :: batched l n := by
  unfold batched
  rw [List.length_append, hc, show n + l.length + n - 1 = l.length + n - 1 + n by omega,
    Nat.add_div_right _ hn, List.range_succ_eq_map, List.map_cons, List.map_map]
  congr 1
  · simp [hc]
  · apply List.map_congr_left
    intro i _
    simp only [Function.comp_apply, Nat.succ_eq_add_one]
    rw [show n * (i + 1) = c.length + n * i by rw [hc]; ring, List.drop_append,
      List.drop_eq_nil_of_le (by omega)]
    simp

theorem batched_flatten {α : Type} {n : ℕ} (hn : 0 < n) {cs : List (List α)} (h : ∀ c ∈ cs, c.length = n) :
    batched cs.flatten n = cs := by
  induction cs with
  | nil => exact batched_nil hn
  | cons c cs ih =>
    rw [List.flatten_cons, batched_append hn (h c (by simp)), ih fun c hc => h c (by simp [hc])]

theorem exists_batches {α : Type} {n m : ℕ} {l : List α} (h : l.length = n * m) :
    ∃ cs : List (List α), cs.length = m ∧ (∀ c ∈ cs, c.length = n) ∧ l = cs.flatten := by
  induction m generalizing l with
  | zero => exact ⟨[], rfl, by simp, by simpa using h⟩
  | succ m ih =>
    have hl : n ≤ l.length := by rw [h, Nat.mul_succ]; omega
    obtain ⟨cs, h1, h2, h3⟩ := ih (l := l.drop n) (by rw [List.length_drop, h, Nat.mul_succ]; omega)
    refine ⟨l.take n :: cs, by simp [h1], ?_, by rw [List.flatten_cons, ← h3, List.take_append_drop]⟩
    intro c hc
    rcases List.mem_cons.1 hc with rfl | hc
    · simp [hl]
    · exact h2 c hc

theorem batched_length {α : Type} (l : List α) : (batched l 8).length = (l.length + 7) / 8 := by
  simp [batched]

theorem batched_getElem {α : Type} (l : List α) {k : ℕ} (h : k < (batched l 8).length) :
    (batched l 8)[k] = (l.drop (8 * k)).take 8 := by
  simp [batched]

namespace Poplar1

/-! ### Aggregation parameters -/

theorem packChunk_testBit (c : List Bool) (hc : c.length ≤ 8) (j : ℕ) :
    (packChunk c).testBit j = (decide (j < 8) && bitAt c (7 - j)) := by
  suffices h : ∀ c : List Bool, c.length ≤ 8 → ∀ j, (packChunk c).testBit j =
      (decide (j < 8) && bitAt c (7 - j)) from h c hc j
  intro c
  induction c using List.reverseRecOn with
  | nil => intro _ j; simp [packChunk, bitAt]
  | append_singleton c b ih =>
    intro hc j
    rw [List.length_append, List.length_singleton] at hc
    have hp : packChunk (c ++ [b]) = packChunk c ||| (b.toNat <<< (7 - c.length)) := by
      unfold packChunk
      rw [List.zipIdx_append, List.foldl_append]
      simp
    rw [hp, Nat.testBit_or, ih (by omega), toNat_shift_testBit]
    by_cases hj : j < 8
    · simp only [hj, decide_true, Bool.true_and]
      rcases Nat.lt_trichotomy (7 - j) c.length with h | h | h
      · have : j ≠ 7 - c.length := by omega
        rw [bitAt_of_lt h, bitAt_of_lt (by simp; omega), List.getElem_append_left h]
        simp [this]
      · have : j = 7 - c.length := by omega
        rw [bitAt_of_le (by omega), bitAt_of_lt (by simp; omega), List.getElem_append_right (by omega)]
        simp [this]
      · have : j ≠ 7 - c.length := by omega
        rw [bitAt_of_le (by omega), bitAt_of_le (by simp; omega)]
        simp [this]
    · have : j ≠ 7 - c.length := by omega
      simp [hj, this]

theorem packChunk_lt {c : List Bool} (hc : c.length ≤ 8) : packChunk c < 256 := by
  refine Nat.lt_pow_two_of_testBit (n := 8) _ fun j hj => ?_
  rw [packChunk_testBit c hc]
  simp [Nat.not_lt.2 hj]

theorem mem_batched {α : Type} {l c : List α} (h : c ∈ batched l 8) : c.length ≤ 8 := by
  unfold batched at h
  obtain ⟨i, -, rfl⟩ := List.mem_map.1 h
  simp

/-- The encoding of a prefix -/
def encPrefix (p : List Bool) : Bytes := (batched p 8).map fun c => UInt8.ofNat (packChunk c)

theorem encPrefix_length (p : List Bool) : (encPrefix p).length = (p.length + 7) / 8 := by
  simp [encPrefix, batched_length]

theorem encPrefix_testBit (p : List Bool) {k : ℕ} (hk : k < (encPrefix p).length) (j : ℕ) :
    (encPrefix p)[k].toNat.testBit j = (decide (j < 8) && bitAt p (8 * k + (7 - j))) := by
  have hk' : k < (batched p 8).length := by simpa [encPrefix] using hk
  have hle := mem_batched (List.getElem_mem hk')
  simp only [encPrefix, List.getElem_map]
  rw [UInt8.toNat_ofNat_of_lt' (packChunk_lt hle), packChunk_testBit _ hle, batched_getElem]
  congr 1
  unfold bitAt
  rw [List.getElem?_take_of_lt (by omega), List.getElem?_drop]

theorem encPrefix_loop (p : List Bool) (enc : Bytes) :
    forFold (batched p 8) enc (fun enc chunk => do
      let b ← toByte (packChunk chunk)
      return enc ++ [b]) = .ok (enc ++ encPrefix p) := by
  unfold encPrefix
  have : ∀ cs : List (List Bool), (∀ c ∈ cs, c.length ≤ 8) → ∀ enc : Bytes,
      forFold cs enc (fun enc chunk => do
        let b ← toByte (packChunk chunk)
        return enc ++ [b]) = .ok (enc ++ cs.map fun c => UInt8.ofNat (packChunk c)) := by
    intro cs
    induction cs with
    | nil => intro _ enc; simp
    | cons c cs ih =>
      intro h enc
      rw [forFold_cons, show toByte (packChunk c) = .ok (UInt8.ofNat (packChunk c)) from
        if_pos (packChunk_lt (h c (by simp)))]
      have := ih (fun c hc => h c (by simp [hc])) (enc ++ [UInt8.ofNat (packChunk c)])
      simp only [Except.ok_bind', Except.pure_eq'] at this ⊢
      rw [this]
      simp
  exact this _ (fun c hc => mem_batched hc) enc

theorem encPrefixes_loop (ps : List (List Bool)) (enc : Bytes) :
    forFold ps enc (fun enc prefix_ =>
      forFold (batched prefix_ 8) enc fun enc chunk => do
        let b ← toByte (packChunk chunk)
        return enc ++ [b]) = .ok (enc ++ (ps.map encPrefix).flatten) := by
  induction ps generalizing enc with
  | nil => simp
  | cons p ps ih =>
    rw [forFold_cons, encPrefix_loop]
    simp only [Except.ok_bind']
    rw [ih]
    simp

theorem lastByteMask_eq (level : ℕ) :
    lastByteMask level = if (level + 1) % 8 = 0 then 0 else 2 ^ (8 - (level + 1) % 8) - 1 := by
  unfold lastByteMask
  have h : (level + 1) % 8 < 8 := Nat.mod_lt _ (by decide)
  revert h
  generalize (level + 1) % 8 = r
  intro h
  dsimp only
  interval_cases r <;> decide

theorem decodePrefix_iff {level : ℕ} {chunk : Bytes} {p : List Bool}
    (hc : chunk.length = (level + 1 + 7) / 8) :
    decodePrefix level chunk = .ok p ↔ p.length = level + 1 ∧ encPrefix p = chunk := by
  have hpos : 0 < chunk.length := by omega
  have hlast : chunk.getLast? = some (chunk[chunk.length - 1]'(by omega)) := by
    rw [List.getLast?_eq_getElem?, List.getElem?_eq_getElem]
  unfold decodePrefix
  rw [hlast]
  simp only
  have hloop : ∀ i < level + 1, (getI chunk (i / 8) >>= fun b => (pure (b.toNat >>> (7 - i % 8) &&& 1 != 0) : Res Bool)) =
      .ok ((chunk[i / 8]?.getD 0).toNat.testBit (7 - i % 8)) := by
    intro i hi
    have : i / 8 < chunk.length := by omega
    rw [getI_of_lt this, List.getElem?_eq_getElem this]
    simp only [Except.ok_bind', Except.pure_eq', Option.getD_some]
    rw [testBit_eq]
  rw [mapRes_pure _ (fun i => (chunk[i / 8]?.getD 0).toNat.testBit (7 - i % 8)) _
    fun i hi => hloop i (by simpa using hi)]
  have hmask : (¬ (chunk[chunk.length - 1].toNat &&& lastByteMask level > 0)) ↔
      ∀ j < 8, level + 1 ≤ 8 * (chunk.length - 1) + (7 - j) → chunk[chunk.length - 1].toNat.testBit j = false := by
    rw [lastByteMask_eq]
    by_cases h0 : (level + 1) % 8 = 0
    · rw [if_pos h0]
      simp only [Nat.and_zero, gt_iff_lt, lt_self_iff_false, not_false_eq_true, true_iff]
      intro j hj h
      omega
    · rw [if_neg h0, Nat.and_two_pow_sub_one_eq_mod, gt_iff_lt, Nat.not_lt, Nat.le_zero]
      constructor
      · intro h j hj hle
        have := congrArg (fun n => n.testBit j) h
        simp only [Nat.testBit_mod_two_pow, Nat.zero_testBit] at this
        have hj' : j < 8 - (level + 1) % 8 := by omega
        simpa [hj'] using this
      · intro h
        apply Nat.eq_of_testBit_eq
        intro j
        rw [Nat.testBit_mod_two_pow, Nat.zero_testBit]
        by_cases hj : j < 8 - (level + 1) % 8
        · rw [h j (by omega) (by omega), Bool.and_false]
        · simp [hj]
  constructor
  · intro h
    rw [Except.bind_eq_ok] at h
    obtain ⟨u, h1, h⟩ := h
    rw [raiseIf_eq_ok, decide_eq_false_iff_not, hmask] at h1
    rw [Except.ok.injEq] at h
    subst h
    refine ⟨by simp, ?_⟩
    apply List.ext_getElem
    · rw [encPrefix_length, hc]; simp
    · intro k hk hk'
      apply UInt8.toNat.inj
      refine Nat.eq_of_testBit_eq fun j => ?_
      rw [encPrefix_testBit]
      by_cases hj : j < 8
      · simp only [hj, decide_true, Bool.true_and]
        by_cases hlt : 8 * k + (7 - j) < level + 1
        · rw [bitAt_of_lt (by simpa using hlt), List.getElem_map, List.getElem_range,
            show (8 * k + (7 - j)) / 8 = k by omega, List.getElem?_eq_getElem hk', Option.getD_some,
            show 7 - (8 * k + (7 - j)) % 8 = j by omega]
        · rw [bitAt_of_le (by simp; omega)]
          have hkl : k = chunk.length - 1 := by omega
          subst hkl
          exact (h1 j hj (by omega)).symm
      · simp only [hj, decide_false, Bool.false_and]
        exact (Nat.testBit_lt_two_pow (Nat.lt_of_lt_of_le (UInt8.toNat_lt _)
          (Nat.pow_le_pow_right (by decide) (Nat.le_of_not_lt hj)))).symm
  · rintro ⟨hl, rfl⟩
    rw [raiseIf_of_not (hmask.2 fun j hj hle => by
      rw [encPrefix_testBit, bitAt_of_le (by omega), Bool.and_false])]
    simp only [Except.ok_bind', Except.ok.injEq]
    apply List.ext_getElem
    · simp [hl]
    · intro i h1 h2
      have hi : i / 8 < (encPrefix p).length := by omega
      rw [List.getElem_map, List.getElem_range, List.getElem?_eq_getElem hi, Option.getD_some,
        encPrefix_testBit, show 8 * (i / 8) + (7 - (7 - i % 8)) = i by omega, bitAt_of_lt h2,
        decide_eq_true (by omega), Bool.true_and]

theorem encodeAggParam_iff {level : ℕ} {prefixes : List (List Bool)} {b : Bytes} :
    encodeAggParam (level, prefixes) = .ok b ↔ level < 2 ^ 16 ∧ prefixes.length < 2 ^ 32 ∧
      ((prefixes.map encPrefix).flatten).length = (level + 1 + 7) / 8 * prefixes.length ∧
      b = (natToLe level 2).reverse ++ (natToLe prefixes.length 4).reverse ++
        (prefixes.map encPrefix).flatten := by
  unfold encodeAggParam
  by_cases h1 : level < 2 ^ 16
  · by_cases h2 : prefixes.length < 2 ^ 32
    · dsimp only
      rw [raiseIf_of_not (by simpa using h1), raiseIf_of_not (by simpa using h2)]
      simp only [Except.ok_bind']
      rw [toBeBytes_nat (by simpa using h1), toBeBytes_nat (by simpa using h2), encPrefixes_loop]
      simp only [Except.ok_bind', List.nil_append]
      by_cases h3 : ((prefixes.map encPrefix).flatten).length = (level + 1 + 7) / 8 * prefixes.length
      · rw [pyAssert_of' h3]
        simp only [Except.ok_bind', Except.pure_eq', Except.ok.injEq]
        exact ⟨fun h => ⟨h1, h2, h3, h.symm⟩, fun h => h.2.2.2.symm⟩
      · refine ⟨fun h => ?_, fun h => absurd h.2.2.1 h3⟩
        rw [Except.bind_eq_ok] at h
        obtain ⟨u, h, -⟩ := h
        rw [pyAssert_eq_ok] at h
        exact absurd (of_decide_eq_true h) h3
    · dsimp only
      rw [raiseIf_of_not (by simpa using h1)]
      simp only [Except.ok_bind']
      rw [raiseIf_of (by simpa using h2)]
      exact ⟨fun h => (by cases h), fun h => absurd h.2.1 h2⟩
  · dsimp only
    rw [raiseIf_of (by simpa using h1)]
    exact ⟨fun h => (by cases h), fun h => absurd h.1 h1⟩

theorem encPrefixes_length {level : ℕ} {prefixes : List (List Bool)}
    (h : ∀ p ∈ prefixes, p.length = level + 1) :
    ((prefixes.map encPrefix).flatten).length = (level + 1 + 7) / 8 * prefixes.length := by
  induction prefixes with
  | nil => simp
  | cons p ps ih =>
    rw [List.map_cons, List.flatten_cons, List.length_append, ih fun q hq => h q (by simp [hq]),
      encPrefix_length, h p (by simp), List.length_cons, Nat.mul_succ, Nat.add_comm]

theorem decodeAggParam_iff {e : Bytes} {a : Poplar1AggParam} :
    decodeAggParam e = .ok a ↔ (∀ p ∈ a.2, p.length = a.1 + 1) ∧ encodeAggParam a = .ok e := by
  obtain ⟨level, prefixes⟩ := a
  dsimp only
  rw [encodeAggParam_iff]
  unfold decodeAggParam
  constructor
  · intro h
    rw [Except.bind_eq_ok] at h
    obtain ⟨⟨el, e1⟩, h1, h⟩ := h
    dsimp only at h
    rw [Except.bind_eq_ok] at h
    obtain ⟨⟨en, e2⟩, h2, h⟩ := h
    dsimp only at h
    rw [Except.bind_eq_ok] at h
    obtain ⟨⟨ep, e3⟩, h3, h⟩ := h
    dsimp only at h
    rw [Except.bind_eq_ok] at h
    obtain ⟨ps, h4, h⟩ := h
    rw [Except.bind_eq_ok] at h
    obtain ⟨u, h5, h⟩ := h
    simp only [Except.pure_eq', Except.ok.injEq, Prod.mk.injEq] at h
    obtain ⟨hlev, rfl⟩ := h
    rw [raiseIf_eq_ok] at h5
    have he3 : e3 = [] := by simpa using h5
    subst he3
    obtain ⟨rfl, l1⟩ := front_eq_ok.1 h1
    obtain ⟨rfl, l2⟩ := front_eq_ok.1 h2
    obtain ⟨rfl, l3⟩ := front_eq_ok.1 h3
    rw [hlev] at l3 h4
    obtain ⟨cs, c1, c2, rfl⟩ := exists_batches l3
    rw [batched_flatten (by omega) c2] at h4
    have hl := mapRes_length h4
    have hps : ∀ i (hi : i < cs.length), (ps[i]'(by omega)).length = level + 1 ∧ encPrefix (ps[i]'(by omega)) = cs[i] := by
      intro i hi
      exact (decodePrefix_iff (c2 _ (List.getElem_mem hi))).1 (mapRes_getElem h4 i hi (by omega))
    have hpl : ∀ p ∈ ps, p.length = level + 1 := by
      intro p hp
      obtain ⟨i, hi, rfl⟩ := List.mem_iff_getElem.1 hp
      exact (hps i (by omega)).1
    have hcs : ps.map encPrefix = cs := by
      apply List.ext_getElem (by simp [hl])
      intro i h1 h2
      rw [List.getElem_map, (hps i h2).2]
    have el1 : natToLe level 2 = el.reverse := by
      rw [← hlev, fromBeBytes, ← l1, ← List.length_reverse, natToLe_natOfLe]
    have el2 : natToLe ps.length 4 = en.reverse := by
      rw [hl, c1, fromBeBytes, ← l2, ← List.length_reverse, natToLe_natOfLe]
    refine ⟨hpl, ?_, ?_, encPrefixes_length hpl, ?_⟩
    · rw [← hlev, fromBeBytes]
      have := natOfLe_lt el.reverse
      rw [List.length_reverse, l1] at this
      exact this
    · rw [hl, c1, fromBeBytes]
      have := natOfLe_lt en.reverse
      rw [List.length_reverse, l2] at this
      exact this
    · rw [el1, el2, hcs]; simp
  · rintro ⟨hpl, h1, h2, h3, rfl⟩
    rw [List.append_assoc, front_append' (by simp [natToLe_length])]
    simp only [Except.ok_bind']
    rw [front_append' (by simp [natToLe_length])]
    have f1 : fromBeBytes (natToLe level 2).reverse = level := by
      rw [fromBeBytes, List.reverse_reverse, natOfLe_natToLe]
      exact Nat.mod_eq_of_lt (by simpa using h1)
    have f2 : fromBeBytes (natToLe prefixes.length 4).reverse = prefixes.length := by
      rw [fromBeBytes, List.reverse_reverse, natOfLe_natToLe]
      exact Nat.mod_eq_of_lt (by simpa using h2)
    simp only [Except.ok_bind']
    rw [f1, f2]
    have := front_append' (b := []) h3
    rw [List.append_nil] at this
    rw [this]
    simp only [Except.ok_bind']
    rw [batched_flatten (by omega) (by
      intro c hc
      obtain ⟨p, hp, rfl⟩ := List.mem_map.1 hc
      rw [encPrefix_length, hpl p hp])]
    rw [mapRes_map, mapRes_pure _ id _ fun p hp => ?_]
    · simp [raiseIf]
    · exact (decodePrefix_iff (by rw [encPrefix_length, hpl p hp])).2 ⟨hpl p hp, rfl⟩

/-! ### The other messages -/

variable {P : Poplar1} {prims : Prims} {fuel : ℕ}

theorem encodeInputShare_eq (s : Poplar1InputShare) :
    encodeInputShare s = .ok (s.key ++ s.corrSeed ++ encAll s.corrInner ++ encAll s.corrLeaf) := by
  unfold encodeInputShare
  rw [encodeVec_eq, encodeVec_eq]
  rfl

theorem decodeInputShare_iff {aggId : ℕ} {e : Bytes} {s : Poplar1InputShare} :
    P.decodeInputShare prims fuel aggId e = .ok s ↔
      (s.key.length = 16 ∧ s.corrSeed.length = 32 ∧ s.corrInner.length = 2 * (P.idpf.bits - 1) ∧
        s.corrLeaf.length = 2) ∧ encodeInputShare s = .ok e := by
  rw [encodeInputShare_eq, Except.ok.injEq]
  unfold decodeInputShare
  constructor
  · intro h
    rw [Except.bind_eq_ok] at h
    obtain ⟨⟨key, e1⟩, h1, h⟩ := h
    dsimp only at h
    rw [Except.bind_eq_ok] at h
    obtain ⟨⟨seed, e2⟩, h2, h⟩ := h
    dsimp only at h
    rw [Except.bind_eq_ok] at h
    obtain ⟨⟨b1, e3⟩, h3, h⟩ := h
    dsimp only at h
    rw [Except.bind_eq_ok] at h
    obtain ⟨inner, h4, h⟩ := h
    rw [Except.bind_eq_ok] at h
    obtain ⟨⟨b2, e4⟩, h5, h⟩ := h
    dsimp only at h
    rw [Except.bind_eq_ok] at h
    obtain ⟨leaf, h6, h⟩ := h
    rw [Except.bind_eq_ok] at h
    obtain ⟨u, h7, h⟩ := h
    cases h
    rw [raiseIf_eq_ok] at h7
    have he4 : e4 = [] := by simpa using h7
    subst he4
    obtain ⟨rfl, l1⟩ := front_eq_ok.1 h1
    obtain ⟨rfl, l2⟩ := front_eq_ok.1 h2
    obtain ⟨rfl, l3⟩ := front_eq_ok.1 h3
    obtain ⟨rfl, l4⟩ := front_eq_ok.1 h5
    rw [decodeVec_eq_ok] at h4 h6
    subst h4 h6
    refine ⟨⟨l1, l2, ?_, encAll_length_iff.1 l4⟩, by simp⟩
    rw [Nat.mul_assoc] at l3
    rw [encAll_length_iff.1 l3]
    omega
  · rintro ⟨⟨l1, l2, l3, l4⟩, rfl⟩
    rw [List.append_assoc, List.append_assoc, front_append' (n := Idpf.KEY_SIZE) l1]
    simp only [Except.ok_bind']
    rw [front_append' (n := (xof prims fuel).seedSize) l2]
    simp only [Except.ok_bind']
    have e3 : (encAll s.corrInner).length = PyField.encSize Field64 * (P.idpf.bits - 1) * 2 := by
      rw [Nat.mul_assoc]
      exact encAll_length_iff.2 (by omega)
    have e4 := front_append' (b := []) (encAll_length_iff.2 l4)
    rw [List.append_nil] at e4
    rw [front_append' e3]
    simp only [Except.ok_bind']
    rw [decodeVec_encAll]
    simp only [Except.ok_bind']
    rw [e4]
    simp only [Except.ok_bind']
    rw [decodeVec_encAll]
    rfl

theorem encodeIdpfFieldVec_eq (v : FieldVec) : encodeIdpfFieldVec v = .ok (encAll v.2) := by
  unfold encodeIdpfFieldVec
  split
  · exact encodeVec_eq _
  · next h =>
    have : v.2 = [] := List.length_eq_zero_iff.1 (by omega)
    rw [this]
    rfl

theorem decodeAtLevel_iff {level : ℕ} {e : Bytes} {v : FieldVec} :
    P.decodeAtLevel level e = .ok v ↔ v.1 = P.idpf.currentField level ∧ encodeIdpfFieldVec v = .ok e := by
  rw [encodeIdpfFieldVec_eq, Except.ok.injEq]
  unfold decodeAtLevel
  constructor
  · intro h
    rw [Except.bind_eq_ok] at h
    obtain ⟨w, h1, h⟩ := h
    cases h
    rw [decodeVec_eq_ok] at h1
    exact ⟨rfl, h1.symm⟩
  · rintro ⟨h1, rfl⟩
    obtain ⟨κ, w⟩ := v
    dsimp only at h1 ⊢
    subst h1
    rw [decodeVec_encAll]
    rfl

theorem encAll_eq_nil {F : Type} [PyField F] {v : List F} : encAll v = [] ↔ v = [] := by
  constructor
  · intro h
    have : (encAll v).length = 0 := by rw [h]; rfl
    rw [encAll_length] at this
    have hp : 0 < PyField.encSize F := encSize_pos F
    rcases Nat.mul_eq_zero.1 this with h | h
    · omega
    · exact List.length_eq_zero_iff.1 (by first | exact h | omega)
  · rintro rfl; rfl

theorem decodeVerifierMessage_iff {st : Poplar1VerifyState} {e : Bytes} {m : Option FieldVec} :
    P.decodeVerifierMessage st e = .ok m ↔
      (∀ v, m = some v → v.1 = P.idpf.currentField st.level ∧ v.2 ≠ []) ∧
      encodeVerifierMessage m = .ok e := by
  unfold decodeVerifierMessage encodeVerifierMessage
  by_cases he : e = []
  · subst he
    simp only [List.length_nil, if_true, Except.ok.injEq]
    cases m with
    | none => simp
    | some v =>
      simp only [reduceCtorEq, Option.some.injEq, forall_eq', false_iff, not_and]
      intro h
      rw [encodeIdpfFieldVec_eq, Except.ok.injEq, encAll_eq_nil]
      exact h.2
  · rw [if_neg (by simpa using he)]
    cases m with
    | none =>
      simp only [reduceCtorEq, false_imp_iff, implies_true, true_and, Except.ok.injEq]
      refine ⟨fun h => ?_, fun h => absurd h.symm he⟩
      rw [Except.bind_eq_ok] at h
      obtain ⟨w, -, h⟩ := h
      cases h
    | some v =>
      simp only [Option.some.injEq, forall_eq']
      constructor
      · intro h
        rw [Except.bind_eq_ok] at h
        obtain ⟨w, h1, h⟩ := h
        cases h
        obtain ⟨h2, h3⟩ := decodeAtLevel_iff.1 h1
        refine ⟨⟨h2, ?_⟩, h3⟩
        intro h
        rw [encodeIdpfFieldVec_eq, Except.ok.injEq] at h3
        exact he (by rw [← h3]; exact encAll_eq_nil.2 h)
      · rintro ⟨⟨h1, -⟩, h2⟩
        rw [decodeAtLevel_iff.2 ⟨h1, h2⟩]
        rfl

end Poplar1
end Vdaf
