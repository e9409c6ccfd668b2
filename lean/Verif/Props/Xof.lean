import Verif.Proofs.Xof
import Verif.Model.Fields

/-!
# XOF properties: C42 - C45
-/

set_option linter.unusedSectionVars false

namespace Vdaf

/-- A toy instance of the primitives, for the examples. -/
def toyPrims : Prims where
  turboShake m d i := UInt8.ofNat (m.foldl (fun a b => 31 * a + b.toNat) (7 * d + 3 * i) / (i + 1))
  aes k b := (List.range 16).map fun i => b.getD (15 - i) 0 + k.getD i 0
  aes_length _ _ _ := by simp

/-! ### C42: one stream, however it is read -/

/-- For `XofTurboShake128`: any sequence of `next` calls of lengths `ns` succeeds and returns
consecutive pieces, of those lengths, of one stream that does not depend on `ns`. -/
theorem C42_turboshake_stream (P : Prims) (fuel : ℕ) (seed dst binder : Bytes)
    (st : (XofTurboShake128 P fuel).State)
    (h : (XofTurboShake128 P fuel).init seed dst binder = .ok st) :
    ∃ s : ℕ → UInt8, ∀ ns : List ℕ,
      ∃ outs st', Spec.readAll (XofTurboShake128 P fuel) st ns = .ok (outs, st') ∧
        outs.map List.length = ns ∧ outs.flatten = Spec.firstBytes s ns.sum := by
  rw [turbo_init] at h
  split at h
  · split at h
    · cases h
      refine ⟨P.turboShake (turboInput seed dst binder) 1, fun ns => ?_⟩
      obtain ⟨outs, h1, h2, h3⟩ := turbo_readAll P fuel (turboInput seed dst binder) ns 0
      exact ⟨outs, _, h1, h2, by simpa using h3⟩
    · cases h
  · cases h

/-- For `XofFixedKeyAes128`: any sequence of `next` calls (up to the end of the 128-bit block
counter) returns consecutive pieces, of the lengths asked for, of one stream that does not depend on
`ns`, and the stream is the one of [GKWWY20] for the key hashed from the tag and the binder. -/
theorem C42_aes_stream (P : Prims) (fuel : ℕ) (seed dst binder : Bytes)
    (st : (XofFixedKeyAes128 P fuel).State)
    (h : (XofFixedKeyAes128 P fuel).init seed dst binder = .ok st) :
    ∃ key : Bytes, ∀ ns : List ℕ, ns.sum < 16 * 2 ^ 128 →
      ∃ outs st', Spec.readAll (XofFixedKeyAes128 P fuel) st ns = .ok (outs, st') ∧
        outs.map List.length = ns ∧
        outs.flatten = Spec.firstBytes (Spec.aesByte P key seed) ns.sum := by
  have hs : seed.length = 16 := by
    by_contra hs
    simp only [XofFixedKeyAes128] at h
    rw [raiseIf_of (by simpa using hs)] at h
    cases h
  by_cases hd : dst.length < 2 ^ 16
  · rw [aes_init P fuel seed dst binder hs hd] at h
    cases h
    refine ⟨Spec.firstBytes (P.turboShake (aesInput dst binder) 2) 16, fun ns hns => ?_⟩
    obtain ⟨outs, h1, h2, h3⟩ := aes_readAll P fuel
      (Spec.firstBytes (P.turboShake (aesInput dst binder) 2) 16) seed hs ns 0 (by simpa using hns)
    exact ⟨outs, _, h1, h2, by simpa using h3⟩
  · obtain ⟨e, he⟩ := aes_init_err P fuel seed dst binder hd
    rw [he] at h; cases h

/-- Reading `a` bytes and then `b` bytes is reading `a + b` bytes (both XOFs). -/
theorem C42_read_split (P : Prims) (fuel : ℕ) (X : Xof)
    (hX : X = XofTurboShake128 P fuel ∨ X = XofFixedKeyAes128 P fuel)
    (seed dst binder : Bytes) (st : X.State) (h : X.init seed dst binder = .ok st)
    (a b : ℕ) (hab : a + b < 16 * 2 ^ 128) :
    ∃ x y st1 st2 st3, X.next st a = .ok (x, st1) ∧ X.next st1 b = .ok (y, st2) ∧
      X.next st (a + b) = .ok (x ++ y, st3) ∧ x.length = a ∧ y.length = b := by
  have key : ∀ s : ℕ → UInt8,
      (∃ outs st', Spec.readAll X st [a, b] = .ok (outs, st') ∧
        outs.map List.length = [a, b] ∧ outs.flatten = Spec.firstBytes s [a, b].sum) →
      (∃ outs st', Spec.readAll X st [a + b] = .ok (outs, st') ∧
        outs.map List.length = [a + b] ∧ outs.flatten = Spec.firstBytes s [a + b].sum) →
      ∃ x y st1 st2 st3, X.next st a = .ok (x, st1) ∧ X.next st1 b = .ok (y, st2) ∧
      X.next st (a + b) = .ok (x ++ y, st3) ∧ x.length = a ∧ y.length = b := by
    rintro s ⟨o1, s1, h1, h2, h3⟩ ⟨o2, s2, h4, h5, h6⟩
    simp only [Spec.readAll] at h1 h4
    cases hx : X.next st a with
    | error e => rw [hx] at h1; cases h1
    | ok r =>
      obtain ⟨x, st1⟩ := r
      rw [hx] at h1
      simp only at h1
      cases hy : X.next st1 b with
      | error e => rw [hy] at h1; cases h1
      | ok r =>
        obtain ⟨y, st2⟩ := r
        rw [hy] at h1
        cases h1
        cases hz : X.next st (a + b) with
        | error e => rw [hz] at h4; cases h4
        | ok r =>
          obtain ⟨z, st3⟩ := r
          rw [hz] at h4
          cases h4
          simp at h2 h3 h5 h6
          refine ⟨x, y, st1, s1, s2, rfl, hy, ?_, h2.1, h2.2⟩
          rw [h6, ← h3]
  rcases hX with rfl | rfl
  · obtain ⟨s, hs⟩ := C42_turboshake_stream P fuel seed dst binder st h
    exact key s (hs _) (hs _)
  · obtain ⟨k, hs⟩ := C42_aes_stream P fuel seed dst binder st h
    exact key _ (hs _ (by simpa using hab)) (hs _ (by simpa using hab))

/-- The hypotheses are met, and reads that cross block boundaries are not trivial. -/
example : ∃ st x y z st1 st2 st3,
    (XofFixedKeyAes128 toyPrims 9).init (List.replicate 16 5) [1, 2] [3] = .ok st ∧
    (XofFixedKeyAes128 toyPrims 9).next st 13 = .ok (x, st1) ∧
    (XofFixedKeyAes128 toyPrims 9).next st1 9 = .ok (y, st2) ∧
    (XofFixedKeyAes128 toyPrims 9).next st 22 = .ok (z, st3) ∧ z = x ++ y ∧ x ≠ List.replicate 13 0 :=
  ⟨_, _, _, _, _, _, _, rfl, rfl, rfl, rfl, by decide +kernel, by decide +kernel⟩

/-! ### C43: rejection sampling -/

section
variable {F : Type} [PyField F]

/-- `next_vec(field, n)` returns `v` (with at most `fuel` chunks read) exactly when `v` has `n`
elements and is the list of accepted samples of the shortest sequence of consecutive
`ENCODED_SIZE`-byte chunks of the stream that has `n` accepted samples. -/
theorem C43_nextVec_rejection_sampling (X : Xof) (fuel n : ℕ) (st st' : X.State) (v : List F) :
    X.nextVec F fuel st n = .ok (v, st') ↔
      ∃ cs : List Bytes, cs.length ≤ fuel ∧
        Spec.readAll X st (List.replicate cs.length (PyField.encSize F)) = .ok (cs, st') ∧
        v = cs.filterMap (Spec.sample F) ∧ v.length = n ∧
        ∀ j < cs.length, ((cs.take j).filterMap (Spec.sample F)).length < n :=
  nextVec_ok X fuel n st (v, st')

/-- The only way not to return is that the XOF raises or that the bound on the number of chunks
is reached. -/
theorem C43_nextVec_total (X : Xof) (hX : ∀ st k, ∃ r, X.next st k = .ok r) (fuel n : ℕ)
    (st : X.State) :
    (∃ v st', X.nextVec F fuel st n = .ok (v, st')) ∨
      X.nextVec F fuel st n = .error .fuel := nextVec_total X hX fuel n st

/-- `next_vec(a)` followed by `next_vec(b)` is `next_vec(a + b)`. -/
theorem C43_nextVec_append (X : Xof) (f g a b : ℕ) (st st1 st2 : X.State) (v w : List F)
    (h1 : X.nextVec F f st a = .ok (v, st1)) (h2 : X.nextVec F g st1 b = .ok (w, st2)) :
    X.nextVec F (f + g) st (a + b) = .ok (v ++ w, st2) :=
  nextVec_append X f g a b st st1 st2 v w h1 h2

/-- ... and conversely, if `next_vec(a + b)` returns then so do `next_vec(a)` and, after it,
`next_vec(b)`. -/
theorem C43_nextVec_split (X : Xof) (f a b : ℕ) (st st2 : X.State) (u : List F)
    (h : X.nextVec F f st (a + b) = .ok (u, st2)) :
    ∃ v w st1, X.nextVec F f st a = .ok (v, st1) ∧ X.nextVec F f st1 b = .ok (w, st2) ∧
      u = v ++ w := nextVec_split X f a b st st2 u h

/-- The result does not depend on the bound once it is reached in time. -/
theorem C43_nextVec_fuel (X : Xof) (f g n : ℕ) (hfg : f ≤ g) (st : X.State) (r : List F × X.State)
    (h : X.nextVec F f st n = .ok r) : X.nextVec F g st n = .ok r := by
  rw [nextVec_ok] at h ⊢
  obtain ⟨cs, h1, h2⟩ := h
  exact ⟨cs, h1.trans hfg, h2⟩

/-- `expand_into_vec` is `next_vec` on a fresh XOF. -/
theorem C43_expandIntoVec (X : Xof) (seed dst binder : Bytes) (n : ℕ) (v : List F) :
    X.expandIntoVec F seed dst binder n = .ok v ↔
      ∃ st st', X.init seed dst binder = .ok st ∧ X.nextVec F X.fuel st n = .ok (v, st') := by
  unfold Xof.expandIntoVec
  constructor
  · intro h
    obtain ⟨st, h1, h2⟩ := Except.bind_eq_ok.1 h
    obtain ⟨⟨w, st'⟩, h3, h4⟩ := Except.bind_eq_ok.1 h2
    cases h4
    exact ⟨st, st', h1, h3⟩
  · rintro ⟨st, st', h1, h2⟩
    rw [h1, Except.ok_bind', h2]
    rfl

/-- A case with a rejected chunk. -/
example : (XofTurboShake128 ⟨fun _ _ i => if i < 8 then 255 else 7, fun _ b => b,
      fun _ _ h => h⟩ 3).expandIntoVec Field64 [] [] [] 2 =
    .ok [506381209866536711, 506381209866536711] := by decide +kernel

/-! ### C44: no bias -/

/-- Every field element is produced by exactly the same number of chunks, which is not zero. -/
theorem C44_unbiased (x y : F) :
    {c : Bytes | c.length = PyField.encSize F ∧ Spec.sample F c = some x}.ncard =
      {c : Bytes | c.length = PyField.encSize F ∧ Spec.sample F c = some y}.ncard ∧
    0 < {c : Bytes | c.length = PyField.encSize F ∧ Spec.sample F c = some x}.ncard := by
  rw [sample_card, sample_card]
  exact ⟨rfl, by positivity⟩

/-- The same for vectors: the number of sequences of `k` chunks from which `next_vec` makes a
given vector does not depend on the vector, only on its length. -/
theorem C44_unbiased_vec (k : ℕ) (v w : List F) (h : v.length = w.length) :
    {cs : List Bytes | cs.length = k ∧ (∀ c ∈ cs, c.length = PyField.encSize F) ∧
      cs.filterMap (Spec.sample F) = v}.ncard =
    {cs : List Bytes | cs.length = k ∧ (∀ c ∈ cs, c.length = PyField.encSize F) ∧
      cs.filterMap (Spec.sample F) = w}.ncard := sample_vec_card k v w h

example : {c : Bytes | c.length = 8 ∧ Spec.sample Field64 c = some 5}.ncard = 1 := sample_card (F := Field64) 5
example : {c : Bytes | c.length = 32 ∧ Spec.sample Field255 c = some 5}.ncard = 2 := by
  have h := sample_card (F := Field255) 5
  have : (2 : ℕ) ^ (8 * PyField.encSize Field255 - Nat.size (PyField.modulus Field255 - 1)) = 2 := by
    decide +kernel
  rw [this] at h; exact h

end

/-! ### C45: domain separation -/

/-- The stream of `XofTurboShake128` is TurboSHAKE128 (domain byte 1) of a message that determines
seed, tag and binder. -/
theorem C45_turboshake_input :
    ∃ input : Bytes → Bytes → Bytes → Bytes,
      (∀ (P : Prims) (fuel : ℕ) (seed dst binder : Bytes) (st : (XofTurboShake128 P fuel).State),
        (XofTurboShake128 P fuel).init seed dst binder = .ok st →
        dst.length < 2 ^ 16 ∧ seed.length < 2 ^ 8 ∧
        ∀ n, ∃ st', (XofTurboShake128 P fuel).next st n =
          .ok (Spec.firstBytes (P.turboShake (input seed dst binder) 1) n, st')) ∧
      ∀ s d b s' d' b', d.length < 2 ^ 16 → d'.length < 2 ^ 16 → s.length < 2 ^ 8 → s'.length < 2 ^ 8 →
        input s d b = input s' d' b' → s = s' ∧ d = d' ∧ b = b' := by
  refine ⟨turboInput, ?_, fun s d b s' d' b' h1 h2 h3 h4 h => turboInput_inj h1 h2 h3 h4 h⟩
  intro P fuel seed dst binder st h
  rw [turbo_init] at h
  split at h
  · split at h
    · rename_i hd hs
      cases h
      refine ⟨hd, hs, fun n => ⟨⟨turboInput seed dst binder, 0 + n⟩, ?_⟩⟩
      simp only [XofTurboShake128, Spec.firstBytes]
      congr 3
      funext i
      simp
    · cases h
  · cases h

/-- The stream of `XofFixedKeyAes128` is that of [GKWWY20] for the seed and the key which is
TurboSHAKE128 (domain byte 2, so never the hash of a `XofTurboShake128`) of a message that
determines tag and binder. -/
theorem C45_aes_input :
    ∃ input : Bytes → Bytes → Bytes,
      (∀ (P : Prims) (fuel : ℕ) (seed dst binder : Bytes) (st : (XofFixedKeyAes128 P fuel).State),
        (XofFixedKeyAes128 P fuel).init seed dst binder = .ok st →
        dst.length < 2 ^ 16 ∧ seed.length = 16 ∧
        ∀ n < 16 * 2 ^ 128, ∃ st', (XofFixedKeyAes128 P fuel).next st n =
          .ok (Spec.firstBytes (Spec.aesByte P
            (Spec.firstBytes (P.turboShake (input dst binder) 2) 16) seed) n, st')) ∧
      ∀ d b d' b', d.length < 2 ^ 16 → d'.length < 2 ^ 16 → input d b = input d' b' →
        d = d' ∧ b = b' := by
  refine ⟨aesInput, ?_, fun d b d' b' h1 h2 h => aesInput_inj h1 h2 h⟩
  intro P fuel seed dst binder st h
  have hs : seed.length = 16 := by
    by_contra hs
    simp only [XofFixedKeyAes128] at h
    rw [raiseIf_of (by simpa using hs)] at h
    cases h
  by_cases hd : dst.length < 2 ^ 16
  · rw [aes_init P fuel seed dst binder hs hd] at h
    cases h
    refine ⟨hd, hs, fun n hn => ⟨⟨0 + n, Spec.firstBytes (P.turboShake (aesInput dst binder) 2) 16, seed⟩, ?_⟩⟩
    rw [aes_next P fuel _ seed hs 0 n (by simpa using hn)]
    simp only [zero_add]
    rfl
  · obtain ⟨e, he⟩ := aes_init_err P fuel seed dst binder hd
    rw [he] at h; cases h

/-- Tags of `2^16` bytes or more are rejected by both XOFs. -/
theorem C45_long_tag_rejected (P : Prims) (fuel : ℕ) (seed dst binder : Bytes) (h : 2 ^ 16 ≤ dst.length) :
    (∃ e, (XofTurboShake128 P fuel).init seed dst binder = .error e) ∧
      ∃ e, (XofFixedKeyAes128 P fuel).init seed dst binder = .error e := by
  refine ⟨?_, aes_init_err P fuel seed dst binder (by omega)⟩
  rw [turbo_init, if_neg (by omega)]
  exact ⟨_, rfl⟩

/-- `format_dst(class, algo, usage) + ctx` determines all four. -/
theorem C45_formatDst_injective (c a u c' a' u' : ℕ) (ctx ctx' t t' : Bytes)
    (h : formatDst c a u = .ok t) (h' : formatDst c' a' u' = .ok t') (heq : t ++ ctx = t' ++ ctx') :
    c = c' ∧ a = a' ∧ u = u' ∧ ctx = ctx' := formatDst_inj h h' heq

/-- `format_dst` returns a tag of eight bytes exactly for the documented ranges. -/
theorem C45_formatDst_total (c a u : ℕ) :
    (∃ t, formatDst c a u = .ok t ∧ t.length = 8) ↔ c < 2 ^ 8 ∧ a < 2 ^ 32 ∧ u < 2 ^ 16 :=
  formatDst_total c a u

example : formatDst 0 3 5 = .ok [18, 0, 0, 0, 0, 3, 0, 5] := by rfl
example : ∃ st, (XofTurboShake128 toyPrims 9).init [1] [2, 3] [4] = .ok st ∧
    st.m = [2, 0, 2, 3, 1, 1, 4] := ⟨_, rfl, rfl⟩

end Vdaf
