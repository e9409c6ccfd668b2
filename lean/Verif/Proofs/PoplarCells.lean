import Verif.Proofs.PoplarHonest
import Verif.Proofs.PoplarCount
import Verif.Proofs.Xof

/-! The points of the oracles. -/

set_option linter.unusedSectionVars false

namespace Vdaf.PO
open Spec (bytesAt poplarIdpf levelKind xofInput idpfTag withOracles)

/-- An input of TurboSHAKE128, or a key and a block -/
abbrev Cell := Bytes ⊕ (Bytes × Bytes)
/-- A byte of an output -/
abbrev Pt := (Bytes × ℕ) ⊕ (Bytes × Bytes × ℕ)

def ptOf : Cell → ℕ → Pt
  | .inl m, i => .inl (m, i)
  | .inr (k, x), i => .inr (k, x, i % 16)

/-- What is added to the output -/
def maskOf : Cell → ℕ → UInt8
  | .inl _, _ => 0
  | .inr (_, x), i => x.getD (i % 16) 0

theorem ptOf_cell {c c' : Cell} {i i' : ℕ} (h : ptOf c i = ptOf c' i') : c = c' := by
  rcases c with m | ⟨k, x⟩ <;> rcases c' with m' | ⟨k', x'⟩ <;> simp_all [ptOf]

theorem ptOf_inl {m : Bytes} {i i' : ℕ} (h : ptOf (.inl m) i = ptOf (.inl m) i') : i = i' := by
  simpa [ptOf] using h

theorem ptOf_mod {c : Cell} {i i' : ℕ} (h : ptOf c i = ptOf c i') : i % 16 = i' % 16 := by
  rcases c with m | ⟨k, x⟩
  · rw [ptOf_inl h]
  · simpa [ptOf] using h

/-- The stream of a sequence of cells -/
def readC (O : Pt → UInt8) (s : ℕ → Cell) (i : ℕ) : UInt8 := O (ptOf (s (i / 16)) i) ^^^ maskOf (s (i / 16)) i

/-- The primitives with the oracle -/
def primsO (prims : Prims) (O : Pt → UInt8) : Prims :=
  withOracles prims (fun m i => O (.inl (m, i))) (fun k x i => O (.inr (k, x, i)))

theorem primsO_turbo (prims : Prims) (O : Pt → UInt8) (m : Bytes) : (primsO prims O).turboShake m 1 = fun i => O (.inl (m, i)) := by
  unfold primsO withOracles Spec.withOracle
  dsimp only
  rw [if_pos rfl]

theorem primsO_other (prims : Prims) (O : Pt → UInt8) (m : Bytes) : (primsO prims O).turboShake m 2 = prims.turboShake m 2 := by
  unfold primsO withOracles Spec.withOracle Spec.withCipher
  dsimp only
  rw [if_neg (by decide)]

theorem primsO_aes (prims : Prims) (O : Pt → UInt8) (k x : Bytes) : (primsO prims O).aes k x =
    if k.length = 16 ∧ x.length = 16 then (List.range 16).map fun i => O (.inr (k, x, i)) else prims.aes k x := rfl

theorem xofInput_turbo (seed dst binder : Bytes) : xofInput seed dst binder = turboInput seed dst binder := rfl

/-- The cells of a stream of `XofTurboShake128` -/
def turboCell (seed dst binder : Bytes) : ℕ → Cell := fun _ => .inl (xofInput seed dst binder)

theorem turboStream_read (prims : Prims) (O : Pt → UInt8) (seed dst binder : Bytes) :
    Spec.turboStream (primsO prims O) seed dst binder = readC O (turboCell seed dst binder) := by
  unfold Spec.turboStream
  rw [primsO_turbo]
  funext i
  show O (.inl (xofInput seed dst binder, i)) = O (.inl (xofInput seed dst binder, i)) ^^^ 0
  rw [UInt8.xor_zero]

/-- The fixed key of a usage -/
def fixedKey (prims : Prims) (ctx nonce : Bytes) (u : ℕ) : Bytes :=
  Spec.firstBytes (prims.turboShake (natToLe (idpfTag u ctx).length 2 ++ idpfTag u ctx ++ nonce) 2) 16

theorem fixedKey_length (prims : Prims) (ctx nonce : Bytes) (u : ℕ) : (fixedKey prims ctx nonce u).length = 16 := by
  simp [fixedKey, Spec.firstBytes]

/-- The cells of the stream of a node -/
def nodeCell (prims : Prims) (bits : ℕ) (ctx nonce : Bytes) (ℓ u : ℕ) (x : Bytes) (j : ℕ) : Cell :=
  if ℓ + 1 < bits then .inr (fixedKey prims ctx nonce u, Spec.sigma (Spec.xorBytes x (natToLe j 16)))
  else .inl (xofInput x (idpfTag u ctx) nonce)

theorem xorBytes_length (a b : Bytes) : (Spec.xorBytes a b).length = a.length := by simp [Spec.xorBytes]

theorem sigma_length {x : Bytes} (h : x.length = 16) : (Spec.sigma x).length = 16 := by
  unfold Spec.sigma
  rw [List.length_append, xorBytes_length]
  simp [h]

theorem srcOf_read (prims : Prims) (O : Pt → UInt8) (bits : ℕ) (ctx nonce : Bytes) (ℓ u : ℕ) {x : Bytes} (hx : x.length = 16) :
    srcOf (primsO prims O) bits ctx nonce ℓ u x = readC O (nodeCell prims bits ctx nonce ℓ u x) := by
  unfold srcOf Spec.idpfStream
  by_cases h : ℓ + 1 < bits
  · rw [if_pos h]
    funext i
    unfold readC nodeCell
    rw [if_pos h]
    unfold Spec.fixedKeyStream Spec.aesByte
    rw [primsO_other]
    have hs : (Spec.sigma (Spec.xorBytes x (natToLe (i / 16) 16))).length = 16 := sigma_length (by rw [xorBytes_length, hx])
    change ((primsO prims O).aes (fixedKey prims ctx nonce u) (Spec.sigma (Spec.xorBytes x (natToLe (i / 16) 16)))).getD (i % 16) 0 ^^^ _ = _
    rw [primsO_aes, if_pos ⟨fixedKey_length _ _ _ _, hs⟩]
    have : ((List.range 16).map fun i' => O (.inr (fixedKey prims ctx nonce u, Spec.sigma (Spec.xorBytes x (natToLe (i / 16) 16)), i'))).getD (i % 16) 0
        = O (.inr (fixedKey prims ctx nonce u, Spec.sigma (Spec.xorBytes x (natToLe (i / 16) 16)), i % 16)) := by
      have hi : i % 16 < 16 := Nat.mod_lt _ (by decide)
      rw [List.getD_eq_getElem?_getD, List.getElem?_map, List.getElem?_range hi]
      rfl
    rw [this]
    rfl
  · rw [if_neg h, turboStream_read]
    congr 1
    funext j
    unfold turboCell nodeCell
    rw [if_neg h]

theorem xorBytes_inj {a b c : Bytes} (ha : a.length = b.length) (h : Spec.xorBytes a c = Spec.xorBytes b c) : a = b := by
  refine List.ext_getElem ha fun i h1 h2 => ?_
  have := congrArg (fun l => l.getD i 0) h
  simp only [Spec.xorBytes, List.getD_eq_getElem?_getD, List.getElem?_map, List.getElem?_range h1, List.getElem?_range h2,
    Option.map_some, Option.getD_some, List.getElem?_eq_getElem h1, List.getElem?_eq_getElem h2] at this
  exact UInt8.xor_left_inj _ |>.1 this

theorem xorBytes_inj' {a b c : Bytes} (ha : a.length = b.length) (hc : a.length = c.length) (h : Spec.xorBytes c a = Spec.xorBytes c b) :
    a = b := by
  refine List.ext_getElem ha fun i h1 h2 => ?_
  have := congrArg (fun l => l.getD i 0) h
  have h3 : i < c.length := by omega
  simp only [Spec.xorBytes, List.getD_eq_getElem?_getD, List.getElem?_map, List.getElem?_range h3,
    Option.map_some, Option.getD_some, List.getElem?_eq_getElem h1, List.getElem?_eq_getElem h2] at this
  exact UInt8.xor_right_inj _ |>.1 this

theorem sigma_injective {a b : Bytes} (ha : a.length = 16) (hb : b.length = 16) (h : Spec.sigma a = Spec.sigma b) : a = b := by
  unfold Spec.sigma at h
  obtain ⟨h1, h2⟩ := List.append_inj h (by simp [ha, hb])
  rw [h1] at h2
  have h3 := xorBytes_inj' (by simp [ha, hb]) (by simp [ha, hb]) h2
  rw [← List.take_append_drop 8 a, ← List.take_append_drop 8 b, h1, h3]

theorem nodeCell_seed {prims : Prims} {bits : ℕ} {ctx nonce : Bytes} (hc : Idpf.CtxOk ctx) {ℓ u : ℕ} {x y : Bytes} {j : ℕ}
    (hx : x.length = 16) (hy : y.length = 16) (h : nodeCell prims bits ctx nonce ℓ u x j = nodeCell prims bits ctx nonce ℓ u y j) : x = y := by
  unfold nodeCell at h
  split at h
  · simp only [Sum.inr.injEq, Prod.mk.injEq, true_and] at h
    exact xorBytes_inj (hx.trans hy.symm) (sigma_injective (by rw [xorBytes_length, hx]) (by rw [xorBytes_length, hy]) h)
  · simp only [Sum.inl.injEq] at h
    have ht : (idpfTag u ctx).length < 2 ^ 16 := by
      have : (idpfTag u ctx).length = ctx.length + 8 := by simp [idpfTag]
      rw [this]
      exact hc
    exact (turboInput_inj ht ht (by rw [hx]; decide) (by rw [hy]; decide) h).1

theorem nodeCell_block {prims : Prims} {bits : ℕ} {ctx nonce : Bytes} {ℓ u : ℕ} {x : Bytes} {j j' : ℕ} (hl : ℓ + 1 < bits)
    (hj : j < 2 ^ 128) (hj' : j' < 2 ^ 128)
    (hx : x.length = 16) (h : nodeCell prims bits ctx nonce ℓ u x j = nodeCell prims bits ctx nonce ℓ u x j') : j = j' := by
  unfold nodeCell at h
  rw [if_pos hl, if_pos hl] at h
  simp only [Sum.inr.injEq, Prod.mk.injEq, true_and] at h
  have := sigma_injective (by rw [xorBytes_length, hx]) (by rw [xorBytes_length, hx]) h
  have := xorBytes_inj' (by simp [natToLe_length]) (by simp [natToLe_length, hx]) this
  exact natToLe_inj (by norm_num at hj ⊢; omega) (by norm_num at hj' ⊢; omega) this

end Vdaf.PO
