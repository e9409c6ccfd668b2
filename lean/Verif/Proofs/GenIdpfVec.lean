import Verif.Model.GenTestVec
import Verif.Proofs.GenTestVec
import Verif.Proofs.IdpfReject
import Verif.Proofs.Derive
import Verif.Props.Idpf
import Verif.Props.Reject

/-! The test vectors of the IDPF and of the XOFs. -/

namespace Vdaf
open TestVectors

theorem ofInt_ok_toNat {F : Type} [PyField F] {n : ℕ} {x : F} (h : ofInt F (n : ℤ) = .ok x) : PyField.toNat x = n := by
  unfold ofInt at h
  split at h
  · next h1 =>
    split at h
    · cases h
      rw [Int.cast_natCast]
      exact PyField.toNat_natCast _ (by exact_mod_cast h1)
    · cases h
  · cases h

theorem genRun_typed {I : Idpf} {prims : Prims} {fuel : ℕ} {alpha : List Bool}
    {beta : (level : ℕ) → List (Fk (I.currentField level))} {ctx nonce key0 key1 : Bytes} {pub : List CorrectionWord}
    {N : ℕ → (Bytes × Bytes) × (Bool × Bool)}
    (hN : Idpf.GenRun I prims fuel alpha beta ctx nonce key0 key1 I.bits pub N) : I.Typed pub := by
  refine ⟨hN.len, fun level hl => ?_⟩
  obtain ⟨bit, cw, -, h1, h2⟩ := hN.step level (by rw [← hN.len]; exact hl)
  rw [List.getElem?_eq_getElem hl] at h1
  cases h1
  obtain ⟨s0, t0, s1, t1, w0, w1, w, -, -, g1, g2, g3, g4, g5, -, g6, -, -, -, -, -, -, -, g7, -⟩ := h2.ex
  refine ⟨?_, w, g6, g7⟩
  rw [g5, xor_length, Idpf.pick_length g1 g2, Idpf.pick_length g3 g4]
  rfl

/-- The inputs of the key generation, and what the vector lists. -/
theorem genIdpfVec_inv {prims : Prims} {fuel : ℕ} {I : Idpf} (hb : 0 < I.bits) {alpha : List Bool} {ctx : Bytes}
    {tv : IdpfVec} (h : genIdpfVec prims fuel I alpha ctx = .ok tv) :
    ∃ betaInner betaLeaf pub keys pubB,
      I.gen prims fuel alpha betaInner betaLeaf ctx (testVecGenRand 16) (testVecGenRand 32) = .ok (pub, keys) ∧
      betaInner.map (·.map PyField.toNat) = (List.range (I.bits - 1)).map (List.replicate I.valueLen) ∧
      betaLeaf.map PyField.toNat = List.replicate I.valueLen (I.bits - 1) ∧ Idpf.encodePublicShare pub = .ok pubB ∧
      tv = ⟨I.bits, alpha, (List.range (I.bits - 1)).map (List.replicate I.valueLen),
        List.replicate I.valueLen (I.bits - 1), hex ctx, hex (testVecGenRand 16), hex pubB, keys.map hex⟩ := by
  unfold genIdpfVec at h
  dsimp only at h
  rw [Except.bind_eq_ok] at h; obtain ⟨betaInner, h1, h⟩ := h
  rw [Except.bind_eq_ok] at h; obtain ⟨x, h2, h⟩ := h
  rw [Except.bind_eq_ok] at h; obtain ⟨⟨pub, keys⟩, h3, h⟩ := h
  dsimp only at h
  rw [Except.bind_eq_ok] at h; obtain ⟨pubB, h4, h⟩ := h
  have k1 : betaInner.map (·.map PyField.toNat) = (List.range (I.bits - 1)).map (List.replicate I.valueLen) := by
    obtain ⟨hl, hg⟩ := mapRes_range_iff.1 h1
    apply List.ext_getElem
    · simp [hl]
    · intro i h5 h6
      simp only [List.length_map, List.length_range] at h5 h6
      obtain ⟨b, h7, h8⟩ := hg i h6
      rw [Except.bind_eq_ok] at h7; obtain ⟨y, h7, h9⟩ := h7
      cases h9
      rw [List.getElem?_eq_getElem h5] at h8
      rw [List.getElem_map, List.getElem_map, List.getElem_range, Option.some.inj h8, List.map_replicate,
        ofInt_ok_toNat h7]
  have k2 : (List.replicate I.valueLen x).map PyField.toNat = List.replicate I.valueLen (I.bits - 1) := by
    rw [List.map_replicate]
    congr 1
    refine ofInt_ok_toNat (F := Field255) ?_
    rw [← h2]
    congr 1
    omega
  refine ⟨betaInner, _, pub, keys, pubB, h3, k1, k2, h4, ?_⟩
  rw [← k1, ← k2]
  exact (Except.ok.inj h).symm

/-- An XOF whose output is a stream -/
theorem genXofVec_inv {X : Xof} {tv : XofVec} (h : genXofVec X = .ok tv) :
    ∃ derived vec e, X.deriveSeed (testVecGenRand X.seedSize) "domain separation tag".toUTF8.data.toList
        "binder string".toUTF8.data.toList = .ok derived ∧
      X.expandIntoVec Field128 (testVecGenRand X.seedSize) "domain separation tag".toUTF8.data.toList
        "binder string".toUTF8.data.toList 40 = .ok vec ∧ encodeVec vec = .ok e ∧
      tv = ⟨hex (testVecGenRand X.seedSize), hex "domain separation tag".toUTF8.data.toList,
        hex "binder string".toUTF8.data.toList, 40, hex derived, hex e⟩ := by
  unfold genXofVec at h
  dsimp only at h
  rw [Except.bind_eq_ok] at h; obtain ⟨derived, h1, h⟩ := h
  rw [Except.bind_eq_ok] at h; obtain ⟨vec, h2, h⟩ := h
  rw [Except.bind_eq_ok] at h; obtain ⟨e, h3, h⟩ := h
  exact ⟨derived, vec, e, h1, h2, h3, (Except.ok.inj h).symm⟩

theorem turbo_deriveSeed_eq {prims : Prims} {fuel : ℕ} {seed dst binder b : Bytes}
    (h : (XofTurboShake128 prims fuel).deriveSeed seed dst binder = .ok b) :
    b = Spec.firstBytes (Spec.turboStream prims seed dst binder) 32 := by
  unfold Xof.deriveSeed at h
  rw [Except.bind_eq_ok] at h; obtain ⟨st, h1, h⟩ := h
  rw [Except.bind_eq_ok] at h; obtain ⟨⟨b', st'⟩, h2, h⟩ := h
  cases h
  obtain ⟨-, rfl⟩ := turbo_init_ok h1
  have h3 := turbo_streams prims fuel (turboInput seed dst binder) 32 0 32 (by omega)
  cases h3.symm.trans h2
  simp [Spec.firstBytes, Spec.turboStream, turboInput, Spec.bytesAt]

theorem aes_derive {prims : Prims} {fuel : ℕ} {seed dst binder b : Bytes} (hs : seed.length = 16)
    (hd : dst.length < 2 ^ 16) (h : (XofFixedKeyAes128 prims fuel).deriveSeed seed dst binder = .ok b) :
    b = Spec.firstBytes (Spec.fixedKeyStream prims seed dst binder) 16 := by
  unfold Xof.deriveSeed at h
  rw [aes_init prims fuel seed dst binder hs hd] at h
  rw [Except.bind_eq_ok] at h; obtain ⟨_, h1, h⟩ := h
  cases h1
  rw [Except.bind_eq_ok] at h; obtain ⟨⟨b', st'⟩, h2, h⟩ := h
  cases h
  have h3 := aes_next prims fuel (Spec.firstBytes (prims.turboShake (aesInput dst binder) 2) 16) seed hs 0 16 (by decide)
  cases h3.symm.trans h2
  simp [Spec.firstBytes, Spec.fixedKeyStream, aesInput]

theorem aes_expand {prims : Prims} {fuel n : ℕ} (hf : fuel < 2 ^ 120) {seed dst binder : Bytes} {v : List Field128}
    (hs : seed.length = 16) (hd : dst.length < 2 ^ 16)
    (h : (XofFixedKeyAes128 prims fuel).expandIntoVec Field128 seed dst binder n = .ok v) :
    v.length = n ∧ ∃ pos', Spec.Samples Field128 (Spec.fixedKeyStream prims seed dst binder) 0 v pos' := by
  unfold Xof.expandIntoVec at h
  rw [aes_init prims fuel seed dst binder hs hd] at h
  rw [Except.bind_eq_ok] at h; obtain ⟨_, h1, h⟩ := h
  cases h1
  rw [Except.bind_eq_ok] at h; obtain ⟨⟨v', st'⟩, h2, h⟩ := h
  cases h
  obtain ⟨h3, pos', -, h4⟩ := nextVec_samples (aes_streams prims fuel _ seed hs (0 + fuel * 16) (by omega)) le_rfl h2
  exact ⟨h3, pos', h4⟩

end Vdaf
