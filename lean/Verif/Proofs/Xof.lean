import Verif.Spec.Xof
import Verif.Proofs.Common
import Verif.Proofs.Field
import Mathlib.Data.Set.Finite.List

/-! Lemmas about the XOFs. -/

set_option linter.unusedSectionVars false

namespace Vdaf
open Finset

/-! ### TurboSHAKE -/

theorem turbo_readAll (P : Prims) (fuel : ℕ) (m : Bytes) (ns : List ℕ) (pos : ℕ) :
    ∃ outs, Spec.readAll (XofTurboShake128 P fuel) ⟨m, pos⟩ ns = .ok (outs, ⟨m, pos + ns.sum⟩) ∧
      outs.map List.length = ns ∧
      outs.flatten = Spec.firstBytes (fun i => P.turboShake m 1 (pos + i)) ns.sum := by
  induction ns generalizing pos with
  | nil => exact ⟨[], rfl, rfl, rfl⟩
  | cons n ns ih =>
    obtain ⟨outs, h1, h2, h3⟩ := ih (pos + n)
    refine ⟨((List.range n).map fun i => P.turboShake m 1 (pos + i)) :: outs, ?_, ?_, ?_⟩
    · simp only [Spec.readAll, XofTurboShake128] at h1 ⊢
      rw [h1]
      simp [add_assoc]
    · simp [h2]
    · rw [List.flatten_cons, h3]
      simp only [Spec.firstBytes, List.sum_cons, List.range_add, List.map_append, List.map_map]
      congr 1
      apply List.map_congr_left
      intro i _
      simp [add_assoc]

/-! ### AES -/

theorem xor_length (a b : Bytes) : (xor a b).length = min a.length b.length := by simp [xor]

theorem xor_eq {a b : Bytes} (h : a.length = b.length) : xor a b = Spec.xorBytes a b := by
  apply List.ext_getElem
  · simp [xor, Spec.xorBytes, h]
  · intro i h1 h2
    simp only [Spec.xorBytes, List.length_map, List.length_range] at h2
    simp [xor, Spec.xorBytes, h2, h ▸ h2]

theorem hashBlock_eq (P : Prims) {key block : Bytes} (h : block.length = 16) :
    hashBlock P key block = Spec.xorBytes (P.aes key (Spec.sigma block)) (Spec.sigma block) ∧
      (Spec.sigma block).length = 16 ∧ (P.aes key (Spec.sigma block)).length = 16 := by
  have h1 : xor (block.drop 8) (block.take 8) = Spec.xorBytes (block.drop 8) (block.take 8) :=
    xor_eq (by simp [h])
  have h2 : (Spec.sigma block).length = 16 := by
    simp [Spec.sigma, Spec.xorBytes, h]
  have h3 := P.aes_length key _ h2
  refine ⟨?_, h2, h3⟩
  simp only [hashBlock]
  rw [h1, show concat [block.drop 8, Spec.xorBytes (block.drop 8) (block.take 8)] = Spec.sigma block by
    simp [concat, Spec.sigma]]
  exact xor_eq (by rw [h2, h3])

theorem flatten_blocks {α : Type} (f : ℕ → List α) (d : α) (hf : ∀ i, (f i).length = 16) (a c : ℕ) :
    ((List.range' a c).map f).flatten =
      (List.range (16 * c)).map fun i => (f (a + i / 16)).getD (i % 16) d := by
  induction c generalizing a with
  | zero => rfl
  | succ c ih =>
    rw [List.range'_succ, List.map_cons, List.flatten_cons, ih (a + 1),
      show 16 * (c + 1) = 16 + 16 * c by ring, List.range_add, List.map_append, List.map_map]
    congr 1
    · apply List.ext_getElem
      · simp [hf]
      · intro i h1 h2
        have hi : i < 16 := by rw [hf] at h1; exact h1
        simp [Nat.div_eq_of_lt hi, Nat.mod_eq_of_lt hi, h1]
    · apply List.map_congr_left
      intro i _
      simp only [Function.comp]
      rw [show (16 + i) / 16 = i / 16 + 1 by omega, show (16 + i) % 16 = i % 16 by omega,
        show a + 1 + i / 16 = a + (i / 16 + 1) by omega]

theorem aes_next (P : Prims) (fuel : ℕ) (key seed : Bytes) (hs : seed.length = 16) (pos n : ℕ)
    (h : pos + n < 16 * 2 ^ 128) :
    (XofFixedKeyAes128 P fuel).next ⟨pos, key, seed⟩ n =
      .ok ((List.range n).map (fun i => Spec.aesByte P key seed (pos + i)), ⟨pos + n, key, seed⟩) := by
  simp only [XofFixedKeyAes128]
  have hb : ∀ i : ℕ, (xor seed (natToLe i 16)).length = 16 := by
    intro i; rw [xor_length, natToLe_length, hs]; rfl
  rw [mapRes_pure _ (fun i => hashBlock P key (xor seed (natToLe i 16))) _ (by
    intro i hi
    have hi' := List.mem_range'_1.1 hi
    rw [toLeBytes_nat (by
      have : (pos + n) / 16 < 2 ^ 128 := Nat.div_lt_of_lt_mul h
      have h2 : (256 : ℕ) ^ 16 = 2 ^ 128 := by norm_num
      omega)]
    rfl)]
  simp only [Except.ok_bind', Except.pure_eq']
  congr 2
  rw [concat, flatten_blocks _ 0 (by
    intro i
    obtain ⟨h1, h2, h3⟩ := hashBlock_eq P (key := key) (hb i)
    rw [h1]; simp [Spec.xorBytes, h3])]
  simp only [slice]
  rw [← List.map_take, ← List.map_drop, List.take_range]
  have hlen : pos % 16 + n ≤ 16 * ((pos + n) / 16 + 1 - pos / 16) := by
    have := Nat.div_le_div_right (c := 16) (Nat.le_add_right pos n)
    omega
  rw [min_eq_left hlen]
  apply List.ext_getElem
  · simp
  · intro i h1 h2
    simp only [List.length_map, List.length_range] at h2
    simp only [List.getElem_map, List.getElem_drop, List.getElem_range]
    rw [show pos / 16 + (pos % 16 + i) / 16 = (pos + i) / 16 by omega,
      show (pos % 16 + i) % 16 = (pos + i) % 16 by omega]
    obtain ⟨h1, h2, h3⟩ := hashBlock_eq P (key := key) (hb ((pos + i) / 16))
    rw [h1, Spec.aesByte, ← xor_eq (a := seed) (by rw [natToLe_length, hs])]
    have hlt : (pos + i) % 16 < 16 := Nat.mod_lt _ (by norm_num)
    simp only [Spec.xorBytes]
    rw [List.getD_eq_getElem?_getD, List.getElem?_eq_getElem (by simpa [h3] using hlt)]
    simp

theorem aes_readAll (P : Prims) (fuel : ℕ) (key seed : Bytes) (hs : seed.length = 16) (ns : List ℕ)
    (pos : ℕ) (h : pos + ns.sum < 16 * 2 ^ 128) :
    ∃ outs, Spec.readAll (XofFixedKeyAes128 P fuel) ⟨pos, key, seed⟩ ns =
        .ok (outs, ⟨pos + ns.sum, key, seed⟩) ∧
      outs.map List.length = ns ∧
      outs.flatten = Spec.firstBytes (fun i => Spec.aesByte P key seed (pos + i)) ns.sum := by
  induction ns generalizing pos with
  | nil => exact ⟨[], rfl, rfl, rfl⟩
  | cons n ns ih =>
    simp only [List.sum_cons] at h
    obtain ⟨outs, h1, h2, h3⟩ := ih (pos + n) (by omega)
    refine ⟨((List.range n).map fun i => Spec.aesByte P key seed (pos + i)) :: outs, ?_, ?_, ?_⟩
    · simp only [Spec.readAll]
      rw [aes_next P fuel key seed hs pos n (by omega)]
      simp only
      rw [h1]
      simp [add_assoc]
    · simp [h2]
    · rw [List.flatten_cons, h3]
      simp only [Spec.firstBytes, List.sum_cons, List.range_add, List.map_append, List.map_map]
      congr 1
      apply List.map_congr_left
      intro i _
      simp [add_assoc]

/-! ### Rejection sampling -/

section
variable {F : Type} [PyField F]

theorem land_mask (x k : ℕ) : x &&& (2 ^ k - 1) = x % 2 ^ k := Nat.and_two_pow_sub_one_eq_mod x k

theorem readAll_append (X : Xof) (st : X.State) (a b : List ℕ) (oa ob : List Bytes) (st1 st2 : X.State)
    (h1 : Spec.readAll X st a = .ok (oa, st1)) (h2 : Spec.readAll X st1 b = .ok (ob, st2)) :
    Spec.readAll X st (a ++ b) = .ok (oa ++ ob, st2) := by
  induction a generalizing st oa with
  | nil => cases h1; exact h2
  | cons n a ih =>
    simp only [Spec.readAll] at h1
    cases hn : X.next st n with
    | error e => rw [hn] at h1; cases h1
    | ok r =>
      obtain ⟨o, st'⟩ := r
      rw [hn] at h1
      simp only at h1
      cases hr : Spec.readAll X st' a with
      | error e => rw [hr] at h1; cases h1
      | ok r =>
        obtain ⟨os, st''⟩ := r
        rw [hr] at h1
        cases h1
        simp only [List.cons_append, Spec.readAll, hn, ih st' os hr]

theorem nextVecLoop_ok (X : Xof) (k length fuel : ℕ) (hk : k = Nat.size (PyField.modulus F - 1))
    (st : X.State) (vec : List F) (r : List F × X.State) :
    X.nextVecLoop F (2 ^ k - 1) length fuel st vec = .ok r ↔
      ∃ cs : List Bytes, cs.length ≤ fuel ∧
        Spec.readAll X st (List.replicate cs.length (PyField.encSize F)) = .ok (cs, r.2) ∧
        r.1 = vec ++ cs.filterMap (Spec.sample F) ∧ length ≤ r.1.length ∧
        ∀ j < cs.length, (vec ++ (cs.take j).filterMap (Spec.sample F)).length < length := by
  induction fuel generalizing st vec with
  | zero =>
    rw [Xof.nextVecLoop]
    by_cases h : vec.length < length
    · rw [if_pos h]
      constructor
      · intro h; cases h
      · rintro ⟨cs, h1, h2, h3, h4, -⟩
        have : cs = [] := List.length_eq_zero_iff.1 (by omega)
        subst this
        simp at h3; rw [h3] at h4; omega
    · rw [if_neg h]
      constructor
      · intro h'
        cases h'
        exact ⟨[], by simp, rfl, by simp, by simpa using h, by simp⟩
      · rintro ⟨cs, h1, h2, h3, h4, -⟩
        have : cs = [] := List.length_eq_zero_iff.1 (by omega)
        subst this
        simp [Spec.readAll] at h2 h3
        rw [← h3, h2]
  | succ fuel ih =>
    rw [Xof.nextVecLoop]
    by_cases h : vec.length < length
    · rw [if_pos h]
      cases hn : X.next st (PyField.encSize F) with
      | error e =>
        constructor
        · intro h'; cases h'
        · rintro ⟨cs, h1, h2, h3, h4, -⟩
          cases cs with
          | nil => simp at h3; rw [h3] at h4; omega
          | cons c cs => simp [List.replicate_succ, Spec.readAll, hn] at h2
      | ok p =>
        obtain ⟨b, st'⟩ := p
        simp only [Except.ok_bind']
        rw [land_mask]
        -- one more chunk
        have key : ∀ vec' : List F, vec' = vec ++ [b].filterMap (Spec.sample F) →
            (X.nextVecLoop F (2 ^ k - 1) length fuel st' vec' = .ok r ↔
            ∃ cs : List Bytes, cs.length ≤ fuel + 1 ∧
              Spec.readAll X st (List.replicate cs.length (PyField.encSize F)) = .ok (cs, r.2) ∧
              r.1 = vec ++ cs.filterMap (Spec.sample F) ∧ length ≤ r.1.length ∧
              ∀ j < cs.length, (vec ++ (cs.take j).filterMap (Spec.sample F)).length < length) := by
          rintro _ rfl
          rw [ih]
          constructor
          · rintro ⟨cs, h1, h2, h3, h4, h5⟩
            refine ⟨b :: cs, by simpa using h1, ?_, ?_, h4, ?_⟩
            · simp [List.replicate_succ, Spec.readAll, hn, h2]
            · rw [h3, List.append_assoc, ← List.filterMap_append]; rfl
            · intro j hj
              cases j with
              | zero => simpa using h
              | succ j =>
                have := h5 j (by simpa using hj)
                rw [List.append_assoc, ← List.filterMap_append] at this
                exact this
          · rintro ⟨cs, h1, h2, h3, h4, h5⟩
            cases cs with
            | nil => simp at h3; rw [h3] at h4; omega
            | cons c cs =>
              simp only [List.length_cons, List.replicate_succ, Spec.readAll, hn] at h2
              cases hr : Spec.readAll X st' (List.replicate cs.length (PyField.encSize F)) with
              | error e => rw [hr] at h2; cases h2
              | ok q =>
                obtain ⟨os, st''⟩ := q
                rw [hr] at h2
                simp only [Except.ok.injEq, Prod.mk.injEq, List.cons.injEq] at h2
                obtain ⟨⟨rfl, rfl⟩, rfl⟩ := h2
                refine ⟨os, by simpa using h1, hr, ?_, h4, ?_⟩
                · rw [h3, List.append_assoc, ← List.filterMap_append]; rfl
                · intro j hj
                  have := h5 (j + 1) (by simpa using hj)
                  rw [List.append_assoc, ← List.filterMap_append]
                  exact this
        by_cases hx : fromLeBytes b % 2 ^ k < PyField.modulus F
        · rw [if_pos hx, ofInt_nat hx]
          simp only [Except.ok_bind']
          apply key
          simp [Spec.sample, ← hk, hx]
        · rw [if_neg hx]
          apply key
          simp [Spec.sample, ← hk, hx]
    · rw [if_neg h]
      constructor
      · intro h'
        cases h'
        exact ⟨[], by simp, rfl, by simp, by simpa using h, by simp⟩
      · rintro ⟨cs, h1, h2, h3, h4, h5⟩
        cases cs with
        | nil =>
          simp [Spec.readAll] at h2 h3
          rw [← h3, h2]
        | cons c cs =>
          have := h5 0 (by simp)
          simp at this; omega

theorem nextVec_ok (X : Xof) (fuel length : ℕ) (st : X.State) (r : List F × X.State) :
    X.nextVec F fuel st length = .ok r ↔
      ∃ cs : List Bytes, cs.length ≤ fuel ∧
        Spec.readAll X st (List.replicate cs.length (PyField.encSize F)) = .ok (cs, r.2) ∧
        r.1 = cs.filterMap (Spec.sample F) ∧ r.1.length = length ∧
        ∀ j < cs.length, ((cs.take j).filterMap (Spec.sample F)).length < length := by
  unfold Xof.nextVec
  rw [nextPowerOf2_of_pos (modulus_pos F)]
  simp only [Except.ok_bind']
  rw [nextVecLoop_ok X _ length fuel rfl]
  simp only [List.nil_append]
  constructor
  · rintro ⟨cs, h1, h2, h3, h4, h5⟩
    refine ⟨cs, h1, h2, h3, le_antisymm ?_ h4, h5⟩
    rcases List.eq_nil_or_concat' cs with rfl | ⟨cs, c, rfl⟩
    · simp [h3]
    · have := h5 cs.length (by simp)
      rw [List.take_left' rfl] at this
      rw [h3, List.filterMap_append, List.length_append]
      have h6 : ([c].filterMap (Spec.sample F)).length ≤ 1 := List.length_filterMap_le _ _
      omega
  · rintro ⟨cs, h1, h2, h3, h4, h5⟩
    exact ⟨cs, h1, h2, h3, h4.ge, h5⟩

theorem readAll_split (X : Xof) (st st2 : X.State) (a b : List ℕ) (o : List Bytes)
    (h : Spec.readAll X st (a ++ b) = .ok (o, st2)) :
    ∃ oa ob st1, o = oa ++ ob ∧ Spec.readAll X st a = .ok (oa, st1) ∧
      Spec.readAll X st1 b = .ok (ob, st2) ∧ oa.length = a.length := by
  induction a generalizing st o with
  | nil => exact ⟨[], o, st, rfl, rfl, h, rfl⟩
  | cons n a ih =>
    simp only [List.cons_append, Spec.readAll] at h
    cases hn : X.next st n with
    | error e => rw [hn] at h; cases h
    | ok p =>
      obtain ⟨c, st'⟩ := p
      rw [hn] at h
      simp only at h
      cases hr : Spec.readAll X st' (a ++ b) with
      | error e => rw [hr] at h; cases h
      | ok q =>
        obtain ⟨os, st''⟩ := q
        rw [hr] at h
        cases h
        obtain ⟨oa, ob, st1, rfl, h1, h2, h3⟩ := ih st' os hr
        exact ⟨c :: oa, ob, st1, rfl, by simp [Spec.readAll, hn, h1], h2, by simp [h3]⟩

theorem nextVec_append (X : Xof) (f g a b : ℕ) (st st1 st2 : X.State) (v w : List F)
    (h1 : X.nextVec F f st a = .ok (v, st1)) (h2 : X.nextVec F g st1 b = .ok (w, st2)) :
    X.nextVec F (f + g) st (a + b) = .ok (v ++ w, st2) := by
  rw [nextVec_ok] at h1 h2 ⊢
  obtain ⟨cs, p1, p2, p3, p4, p5⟩ := h1
  obtain ⟨ds, q1, q2, q3, q4, q5⟩ := h2
  simp only at *
  refine ⟨cs ++ ds, by simp; omega, ?_, by simp [p3, q3], by simp [p4, q4], ?_⟩
  · rw [List.length_append, List.replicate_add]
    exact readAll_append X st _ _ _ _ _ _ p2 q2
  · intro j hj
    by_cases hjc : j < cs.length
    · rw [List.take_append_of_le_length (by omega)]
      have := p5 j hjc; omega
    · have := q5 (j - cs.length) (by simp at hj; omega)
      rw [List.take_append, List.take_of_length_le (by omega), List.filterMap_append,
        List.length_append, ← p3, p4]
      omega

theorem filterMap_take_succ (cs : List Bytes) (j : ℕ) :
    ((cs.take (j + 1)).filterMap (Spec.sample F)).length ≤
      ((cs.take j).filterMap (Spec.sample F)).length + 1 := by
  rw [List.take_add_one, List.filterMap_append, List.length_append]
  have h : (cs[j]?.toList.filterMap (Spec.sample F)).length ≤ cs[j]?.toList.length :=
    List.length_filterMap_le _ _
  have h2 : cs[j]?.toList.length ≤ 1 := by cases cs[j]? <;> simp
  omega

theorem nextVec_split (X : Xof) (f a b : ℕ) (st st2 : X.State) (u : List F)
    (h : X.nextVec F f st (a + b) = .ok (u, st2)) :
    ∃ v w st1, X.nextVec F f st a = .ok (v, st1) ∧ X.nextVec F f st1 b = .ok (w, st2) ∧
      u = v ++ w := by
  rw [nextVec_ok] at h
  obtain ⟨cs, h1, h2, h3, h4, h5⟩ := h
  simp only at h2 h3 h4
  have hex : ∃ j, a ≤ ((cs.take j).filterMap (Spec.sample F)).length :=
    ⟨cs.length, by rw [List.take_length, ← h3, h4]; omega⟩
  classical
  obtain ⟨j, hj, hmin⟩ : ∃ j, a ≤ ((cs.take j).filterMap (Spec.sample F)).length ∧
      ∀ i < j, ((cs.take i).filterMap (Spec.sample F)).length < a :=
    ⟨Nat.find hex, Nat.find_spec hex, fun i hi => by simpa using Nat.find_min hex hi⟩
  have hjl : j ≤ cs.length := by
    by_contra hc
    have := hmin cs.length (by omega)
    rw [List.take_length, ← h3, h4] at this
    omega
  have heq : ((cs.take j).filterMap (Spec.sample F)).length = a := by
    refine le_antisymm ?_ hj
    cases j with
    | zero => simp
    | succ j =>
      have := filterMap_take_succ (F := F) cs j
      have := hmin j (by omega)
      omega
  rw [show cs.length = j + (cs.length - j) by omega, List.replicate_add] at h2
  obtain ⟨oa, ob, st1, rfl, r1, r2, r3⟩ := readAll_split X st st2 _ _ cs h2
  rw [List.length_replicate] at r3
  subst r3
  rw [List.take_left' rfl] at heq
  simp only [List.length_append, Nat.add_sub_cancel_left] at r2 h1
  refine ⟨oa.filterMap (Spec.sample F), ob.filterMap (Spec.sample F), st1, ?_, ?_, ?_⟩
  · rw [nextVec_ok]
    refine ⟨oa, by omega, r1, rfl, heq, fun i hi => ?_⟩
    have := hmin i hi
    rwa [List.take_append_of_le_length (by omega)] at this
  · rw [nextVec_ok]
    refine ⟨ob, by omega, r2, rfl, ?_, fun i hi => ?_⟩
    · rw [h3, List.filterMap_append, List.length_append, heq] at h4
      simpa using h4
    · have := h5 (oa.length + i) (by simp; omega)
      rw [List.take_append, List.take_of_length_le (by omega), List.filterMap_append,
        List.length_append, heq] at this
      simp only [Nat.add_sub_cancel_left] at this
      omega
  · rw [h3, List.filterMap_append]

theorem nextVecLoop_total (X : Xof) (hX : ∀ st k, ∃ r, X.next st k = .ok r) (k length fuel : ℕ)
    (st : X.State) (vec : List F) :
    (∃ r, X.nextVecLoop F (2 ^ k - 1) length fuel st vec = .ok r) ∨
      X.nextVecLoop F (2 ^ k - 1) length fuel st vec = .error .fuel := by
  induction fuel generalizing st vec with
  | zero =>
    rw [Xof.nextVecLoop]
    split
    · exact .inr rfl
    · exact .inl ⟨_, rfl⟩
  | succ fuel ih =>
    rw [Xof.nextVecLoop]
    split
    · obtain ⟨⟨b, st'⟩, hb⟩ := hX st (PyField.encSize F)
      rw [hb]
      simp only [Except.ok_bind']
      split
      · rename_i hx
        rw [ofInt_nat hx]
        exact ih st' _
      · exact ih st' _
    · exact .inl ⟨_, rfl⟩

theorem nextVec_total (X : Xof) (hX : ∀ st k, ∃ r, X.next st k = .ok r) (fuel n : ℕ)
    (st : X.State) :
    (∃ v st', X.nextVec F fuel st n = .ok (v, st')) ∨
      X.nextVec F fuel st n = .error .fuel := by
  unfold Xof.nextVec
  rw [nextPowerOf2_of_pos (modulus_pos F)]
  simp only [Except.ok_bind']
  rcases nextVecLoop_total (F := F) X hX (Nat.size (PyField.modulus F - 1)) n fuel st [] with ⟨⟨v, s⟩, h⟩ | h
  · exact .inl ⟨v, s, h⟩
  · exact .inr h

theorem size_le_of_modulus (F : Type) [PyField F] :
    Nat.size (PyField.modulus F - 1) ≤ 8 * PyField.encSize F := by
  rw [Nat.size_le, two_pow_8_mul]
  have := PyField.modulus_le (F := F)
  have := modulus_pos F
  omega

/-- The chunks that are sampled to `x`. -/
theorem sample_chunks (x : F) :
    {c : Bytes | c.length = PyField.encSize F ∧ Spec.sample F c = some x} =
      (fun q => natToLe (q * 2 ^ Nat.size (PyField.modulus F - 1) + PyField.toNat x) (PyField.encSize F)) ''
        (Finset.range (2 ^ (8 * PyField.encSize F - Nat.size (PyField.modulus F - 1)))) := by
  set k := Nat.size (PyField.modulus F - 1)
  have hk : k ≤ 8 * PyField.encSize F := size_le_of_modulus F
  have hm : PyField.modulus F ≤ 2 ^ k := le_np2
  have hpow : 2 ^ (8 * PyField.encSize F - k) * 2 ^ k = 256 ^ PyField.encSize F := by
    rw [← pow_add, Nat.sub_add_cancel hk, two_pow_8_mul]
  have hx := PyField.toNat_lt x
  ext c
  simp only [Set.mem_ofPred_eq, Set.mem_image, Finset.coe_range, Set.mem_Iio]
  constructor
  · rintro ⟨h1, h2⟩
    simp only [Spec.sample] at h2
    split at h2
    · rename_i hlt
      have h3 : PyField.toNat x = fromLeBytes c % 2 ^ k := by
        rw [← Option.some.inj h2, PyField.toNat_natCast _ hlt]
      have hc : fromLeBytes c < 256 ^ PyField.encSize F := h1 ▸ natOfLe_lt c
      refine ⟨fromLeBytes c / 2 ^ k, ?_, ?_⟩
      · exact Nat.div_lt_of_lt_mul (by rw [mul_comm, hpow]; exact hc)
      · rw [h3, mul_comm, Nat.div_add_mod, ← h1]
        exact natToLe_natOfLe c
    · cases h2
  · rintro ⟨q, hq, rfl⟩
    refine ⟨natToLe_length _ _, ?_⟩
    have hlt : q * 2 ^ k + PyField.toNat x < 256 ^ PyField.encSize F := by
      rw [← hpow]
      calc _ < q * 2 ^ k + 2 ^ k := by omega
        _ = (q + 1) * 2 ^ k := by ring
        _ ≤ _ := Nat.mul_le_mul_right _ hq
    have h4 : fromLeBytes (natToLe (q * 2 ^ k + PyField.toNat x) (PyField.encSize F)) =
        q * 2 ^ k + PyField.toNat x := by
      rw [show fromLeBytes = natOfLe from rfl, natOfLe_natToLe, Nat.mod_eq_of_lt hlt]
    simp only [Spec.sample]
    rw [h4, show (q * 2 ^ k + PyField.toNat x) % 2 ^ k = PyField.toNat x by
      rw [Nat.mul_add_mod', Nat.mod_eq_of_lt (by omega)], if_pos hx, PyField.natCast_toNat]

theorem sample_card (x : F) :
    {c : Bytes | c.length = PyField.encSize F ∧ Spec.sample F c = some x}.ncard =
      2 ^ (8 * PyField.encSize F - Nat.size (PyField.modulus F - 1)) := by
  rw [sample_chunks, Set.InjOn.ncard_image, Set.ncard_coe_finset, Finset.card_range]
  set k := Nat.size (PyField.modulus F - 1)
  have hk : k ≤ 8 * PyField.encSize F := size_le_of_modulus F
  have hm : PyField.modulus F ≤ 2 ^ k := le_np2
  have hpow : 2 ^ (8 * PyField.encSize F - k) * 2 ^ k = 256 ^ PyField.encSize F := by
    rw [← pow_add, Nat.sub_add_cancel hk, two_pow_8_mul]
  have hx := PyField.toNat_lt x
  have hlt : ∀ q, q < 2 ^ (8 * PyField.encSize F - k) →
      q * 2 ^ k + PyField.toNat x < 256 ^ PyField.encSize F := by
    intro q hq
    rw [← hpow]
    calc _ < q * 2 ^ k + 2 ^ k := by omega
      _ = (q + 1) * 2 ^ k := by ring
      _ ≤ _ := Nat.mul_le_mul_right _ hq
  intro q hq r hr h
  simp only [Finset.coe_range, Set.mem_Iio] at hq hr
  have h1 := natToLe_inj (hlt q hq) (hlt r hr) h
  have h2 : q * 2 ^ k = r * 2 ^ k := by omega
  exact Nat.eq_of_mul_eq_mul_right (by positivity) h2

/-- Sequences of `k` chunks that are sampled to `v`. -/
def chunkSeqs (k : ℕ) (v : List F) : Set (List Bytes) :=
  {cs : List Bytes | cs.length = k ∧ (∀ c ∈ cs, c.length = PyField.encSize F) ∧
      cs.filterMap (Spec.sample F) = v}

theorem chunkSeqs_succ (k : ℕ) (v : List F) :
    chunkSeqs (k + 1) v =
      Set.image2 List.cons {c : Bytes | c.length = PyField.encSize F ∧ Spec.sample F c = none}
        (chunkSeqs k v) ∪
      Set.image2 List.cons
        {c : Bytes | c.length = PyField.encSize F ∧ ∃ x ∈ v.head?, Spec.sample F c = some x}
        (chunkSeqs k v.tail) := by
  ext cs
  simp only [chunkSeqs, Set.mem_union, Set.mem_image2, Set.mem_ofPred_eq]
  constructor
  · rintro ⟨h1, h2, h3⟩
    cases cs with
    | nil => cases h1
    | cons c cs =>
      cases hc : Spec.sample F c with
      | none =>
        rw [List.filterMap_cons_none hc] at h3
        exact .inl ⟨c, ⟨h2 c List.mem_cons_self, hc⟩, cs, ⟨by simpa using h1,
          fun d hd => h2 d (List.mem_cons_of_mem _ hd), h3⟩, rfl⟩
      | some x =>
        rw [List.filterMap_cons_some hc] at h3
        subst h3
        exact .inr ⟨c, ⟨h2 c List.mem_cons_self, x, rfl, hc⟩, cs, ⟨by simpa using h1,
          fun d hd => h2 d (List.mem_cons_of_mem _ hd), rfl⟩, rfl⟩
  · rintro (⟨c, ⟨h1, h2⟩, cs, ⟨h3, h4, h5⟩, rfl⟩ | ⟨c, ⟨h1, x, hx, h2⟩, cs, ⟨h3, h4, h5⟩, rfl⟩)
    · exact ⟨by simp [h3], by simpa [h1] using h4, by rw [List.filterMap_cons_none h2, h5]⟩
    · refine ⟨by simp [h3], by simpa [h1] using h4, ?_⟩
      rw [List.filterMap_cons_some h2, h5]
      cases v with
      | nil => cases hx
      | cons y v => cases hx; rfl

instance : Finite UInt8 := Finite.of_injective (fun b : UInt8 => (⟨b.toNat, b.toNat_lt⟩ : Fin 256))
  fun a b h => UInt8.toNat_inj.1 (congrArg Fin.val h)

theorem finite_chunks (p : Bytes → Prop) (n : ℕ) : {c : Bytes | c.length = n ∧ p c}.Finite :=
  (List.finite_length_eq UInt8 n).subset fun _ h => h.1

theorem chunkSeqs_finite (k : ℕ) (v : List F) : (chunkSeqs k v).Finite := by
  induction k generalizing v with
  | zero =>
    refine (Set.finite_singleton ([] : List Bytes)).subset fun cs h => ?_
    exact List.length_eq_zero_iff.1 h.1
  | succ k ih =>
    rw [chunkSeqs_succ]
    exact ((finite_chunks _ _).image2 _ (ih v)).union ((finite_chunks _ _).image2 _ (ih _))

theorem ncard_image2_cons {α : Type} (s : Set α) (t : Set (List α)) :
    (Set.image2 List.cons s t).ncard = s.ncard * t.ncard := by
  rw [← Set.image_uncurry_prod, Set.InjOn.ncard_image, Set.ncard_prod]
  rintro ⟨a, b⟩ - ⟨c, d⟩ - h
  simpa using h

theorem sample_vec_card (k : ℕ) (v w : List F) (h : v.length = w.length) :
    (chunkSeqs k v).ncard = (chunkSeqs k w).ncard := by
  induction k generalizing v w with
  | zero =>
    have h0 : ∀ v : List F, chunkSeqs 0 v = if v = [] then {[]} else ∅ := by
      intro v
      ext cs
      simp only [chunkSeqs, Set.mem_ofPred_eq, List.length_eq_zero_iff]
      split
      · subst_vars
        simp only [Set.mem_singleton_iff]
        constructor
        · exact fun h => h.1
        · rintro rfl; simp
      · rename_i hv
        simp only [Set.mem_empty_iff_false, iff_false]
        rintro ⟨rfl, -, h⟩
        exact hv (by simpa using h.symm)
    rw [h0, h0]
    have : v = [] ↔ w = [] := by
      rw [← List.length_eq_zero_iff, ← List.length_eq_zero_iff, h]
    simp only [this]
  | succ k ih =>
    have step : ∀ v : List F, (chunkSeqs (k + 1) v).ncard =
        {c : Bytes | c.length = PyField.encSize F ∧ Spec.sample F c = none}.ncard * (chunkSeqs k v).ncard +
        {c : Bytes | c.length = PyField.encSize F ∧ ∃ x ∈ v.head?, Spec.sample F c = some x}.ncard *
          (chunkSeqs k v.tail).ncard := by
      intro v
      rw [chunkSeqs_succ, Set.ncard_union_eq _ ((finite_chunks _ _).image2 _ (chunkSeqs_finite k v))
        ((finite_chunks _ _).image2 _ (chunkSeqs_finite k _)), ncard_image2_cons, ncard_image2_cons]
      rw [Set.disjoint_left]
      rintro _ ⟨c, hc, cs, -, rfl⟩ ⟨d, ⟨-, x, -, hd⟩, ds, -, he⟩
      have := (List.cons.inj he).1
      subst this
      rw [hc.2] at hd; cases hd
    have hhead : ∀ v : List F,
        {c : Bytes | c.length = PyField.encSize F ∧ ∃ x ∈ v.head?, Spec.sample F c = some x}.ncard =
          if v.length = 0 then 0 else 2 ^ (8 * PyField.encSize F - Nat.size (PyField.modulus F - 1)) := by
      intro v
      cases v with
      | nil => simp
      | cons x v =>
        rw [if_neg (by simp), ← sample_card x]
        congr 1
        ext c
        simp
    rw [step, step, hhead, hhead, ih v w h, ih v.tail w.tail (by simp [h]), h]

end

/-! ### Injectivity of what is absorbed -/

/-- What XofTurboShake128 absorbs. -/
def turboInput (seed dst binder : Bytes) : Bytes :=
  natToLe dst.length 2 ++ dst ++ natToLe seed.length 1 ++ seed ++ binder

/-- What XofFixedKeyAes128 absorbs. -/
def aesInput (dst binder : Bytes) : Bytes := natToLe dst.length 2 ++ dst ++ binder

theorem append_split {α : Type} {a b c d : List α} (h : a ++ b = c ++ d) (hl : a.length = c.length) :
    a = c ∧ b = d := List.append_inj h hl

theorem prefixed_inj {len : ℕ} {a b c d : Bytes} (ha : a.length < 256 ^ len) (hc : c.length < 256 ^ len)
    (h : natToLe a.length len ++ (a ++ b) = natToLe c.length len ++ (c ++ d)) : a = c ∧ b = d := by
  obtain ⟨h1, h2⟩ := List.append_inj h (by simp [natToLe_length])
  exact List.append_inj h2 (natToLe_inj ha hc h1)

theorem turboInput_inj {s d b s' d' b' : Bytes} (hd : d.length < 2 ^ 16) (hd' : d'.length < 2 ^ 16)
    (hs : s.length < 2 ^ 8) (hs' : s'.length < 2 ^ 8) (h : turboInput s d b = turboInput s' d' b') :
    s = s' ∧ d = d' ∧ b = b' := by
  simp only [turboInput, List.append_assoc] at h
  obtain ⟨h1, h2⟩ := prefixed_inj (by simpa using hd) (by simpa using hd') h
  obtain ⟨h3, h4⟩ := prefixed_inj (by simpa using hs) (by simpa using hs') h2
  exact ⟨h3, h1, h4⟩

theorem aesInput_inj {d b d' b' : Bytes} (hd : d.length < 2 ^ 16) (hd' : d'.length < 2 ^ 16)
    (h : aesInput d b = aesInput d' b') : d = d' ∧ b = b' := by
  simp only [aesInput, List.append_assoc] at h
  exact prefixed_inj (by simpa using hd) (by simpa using hd') h

theorem turbo_init (P : Prims) (fuel : ℕ) (seed dst binder : Bytes) :
    (XofTurboShake128 P fuel).init seed dst binder =
      if dst.length < 2 ^ 16 then
        if seed.length < 2 ^ 8 then .ok ⟨turboInput seed dst binder, 0⟩ else .error (.value "bad to_le_bytes call")
      else .error (.value "bad to_le_bytes call") := by
  simp only [XofTurboShake128]
  by_cases h : dst.length < 2 ^ 16
  · rw [if_pos h, toLeBytes_nat (by simpa using h)]
    by_cases h' : seed.length < 2 ^ 8
    · rw [if_pos h', toLeBytes_nat (by simpa using h')]
      rfl
    · rw [if_neg h']
      simp only [Except.ok_bind', toLeBytes]
      rw [if_pos (by simp at *; omega)]
      rfl
  · rw [if_neg h]
    simp only [toLeBytes]
    rw [if_pos (by simp at *; omega)]
    rfl

theorem aes_init (P : Prims) (fuel : ℕ) (seed dst binder : Bytes) (hs : seed.length = 16)
    (hd : dst.length < 2 ^ 16) :
    (XofFixedKeyAes128 P fuel).init seed dst binder =
      .ok ⟨0, Spec.firstBytes (P.turboShake (aesInput dst binder) 2) 16, seed⟩ := by
  simp only [XofFixedKeyAes128]
  rw [raiseIf_of_not (by simpa using hs), toLeBytes_nat (by simpa using hd)]
  rfl

theorem aes_init_err (P : Prims) (fuel : ℕ) (seed dst binder : Bytes)
    (hd : ¬ dst.length < 2 ^ 16) : ∃ e, (XofFixedKeyAes128 P fuel).init seed dst binder = .error e := by
  simp only [XofFixedKeyAes128]
  by_cases hs : seed.length = 16
  · rw [raiseIf_of_not (by simpa using hs)]
    simp only [toLeBytes]
    rw [if_pos (by simp at *; omega)]
    exact ⟨_, rfl⟩
  · rw [raiseIf_of (by simpa using hs)]
    exact ⟨_, rfl⟩

theorem formatDst_inj {c a u c' a' u' : ℕ} {ctx ctx' t t' : Bytes}
    (h : formatDst c a u = .ok t) (h' : formatDst c' a' u' = .ok t') (heq : t ++ ctx = t' ++ ctx') :
    c = c' ∧ a = a' ∧ u = u' ∧ ctx = ctx' := by
  simp only [formatDst] at h h'
  obtain ⟨v, hv, h⟩ := Except.bind_eq_ok.1 h
  obtain ⟨c1, hc, h⟩ := Except.bind_eq_ok.1 h
  obtain ⟨a1, ha, h⟩ := Except.bind_eq_ok.1 h
  obtain ⟨u1, hu, h⟩ := Except.bind_eq_ok.1 h
  obtain ⟨v', hv', h'⟩ := Except.bind_eq_ok.1 h'
  obtain ⟨c1', hc', h'⟩ := Except.bind_eq_ok.1 h'
  obtain ⟨a1', ha', h'⟩ := Except.bind_eq_ok.1 h'
  obtain ⟨u1', hu', h'⟩ := Except.bind_eq_ok.1 h'
  cases h; cases h'
  simp only [concat, List.flatten_cons, List.flatten_nil, List.append_nil, List.append_assoc] at heq
  obtain ⟨-, heq⟩ := List.append_inj heq (by rw [toBeBytes_length hv, toBeBytes_length hv'])
  obtain ⟨e1, heq⟩ := List.append_inj heq (by rw [toBeBytes_length hc, toBeBytes_length hc'])
  obtain ⟨e2, heq⟩ := List.append_inj heq (by rw [toBeBytes_length ha, toBeBytes_length ha'])
  obtain ⟨e3, heq⟩ := List.append_inj heq (by rw [toBeBytes_length hu, toBeBytes_length hu'])
  have i1 := fromBe_toBe hc
  have i2 := fromBe_toBe ha
  have i3 := fromBe_toBe hu
  rw [e1, fromBe_toBe hc'] at i1
  rw [e2, fromBe_toBe ha'] at i2
  rw [e3, fromBe_toBe hu'] at i3
  exact ⟨by exact_mod_cast i1.symm, by exact_mod_cast i2.symm, by exact_mod_cast i3.symm, heq⟩

theorem formatDst_total (c a u : ℕ) :
    (∃ t, formatDst c a u = .ok t ∧ t.length = 8) ↔ c < 2 ^ 8 ∧ a < 2 ^ 32 ∧ u < 2 ^ 16 := by
  simp only [formatDst]
  constructor
  · rintro ⟨t, h, -⟩
    obtain ⟨v, hv, h⟩ := Except.bind_eq_ok.1 h
    obtain ⟨c1, hc, h⟩ := Except.bind_eq_ok.1 h
    obtain ⟨a1, ha, h⟩ := Except.bind_eq_ok.1 h
    obtain ⟨u1, hu, h⟩ := Except.bind_eq_ok.1 h
    have := (toBeBytes_eq_ok.1 hc)
    have := (toBeBytes_eq_ok.1 ha)
    have := (toBeBytes_eq_ok.1 hu)
    refine ⟨?_, ?_, ?_⟩ <;> simp at * <;> omega
  · rintro ⟨h1, h2, h3⟩
    rw [show toBeBytes (VERSION : Int) 1 = .ok [18] by rfl, toBeBytes_nat (by simpa using h1),
      toBeBytes_nat (by simpa using h2), toBeBytes_nat (by simpa using h3)]
    exact ⟨_, rfl, by simp [concat, natToLe_length]⟩

end Vdaf
