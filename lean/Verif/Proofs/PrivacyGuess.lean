import Verif.Proofs.PrivacyQuery
import Verif.Proofs.PrivacyTransport
import Verif.Proofs.RomKey

/-! The coalition does not guess the secret seeds. -/

set_option linter.unusedSectionVars false

namespace Vdaf
open Finset
open Spec (secretInputs runWith tag seedAt bytesAt Coins Transcript FreshCoins batchSecrets QueryReply QueryMove
  QueryStrategy coinsOf oracles)
attribute [local instance] bytesFintype

theorem chunksOf_congr {F : Type} [PyField F] {fuel N : ℕ} {s s' : ℕ → UInt8} (hN : fuel * PyField.encSize F ≤ N)
    (h : ∀ i < N, s i = s' i) : chunksOf F fuel s = chunksOf F fuel s' := by
  unfold chunksOf
  refine List.map_congr_left fun i hi => ?_
  refine bytesAt_congr fun j hj => h j ?_
  have h1 := List.mem_range.1 hi
  have : (i + 1) * PyField.encSize F ≤ fuel * PyField.encSize F := Nat.mul_le_mul_right _ h1
  rw [Nat.add_mul] at this
  omega

theorem Ev.congr {F : Type} [PyField F] {fuel N n : ℕ} {s s' : ℕ → UInt8} (hN : fuel * PyField.encSize F ≤ N)
    (h : ∀ i < N, s i = s' i) {v : List F} (he : Ev F fuel n s v) : Ev F fuel n s' v := by
  unfold Ev at he ⊢
  rwa [← chunksOf_congr hN h]

namespace Prio3
variable {F : Type} [NttField F] {Meas Agg : Type} {prims : Prims} {fuel : ℕ}

/-! ### The random bytes as seeds -/

/-- The bytes of the seeds. -/
def flatSeeds {K : ℕ} (x : Fin K → Key) : Bytes :=
  tab (K * 32) fun p => if h : p / 32 < K then (x ⟨p / 32, h⟩).1[p % 32]'(by
    rw [(x ⟨p / 32, h⟩).2]; exact Nat.mod_lt _ (by norm_num)) else 0

theorem flatSeeds_length {K : ℕ} (x : Fin K → Key) : (flatSeeds x).length = K * 32 := tab_length _ _

theorem slice_flatSeeds {K : ℕ} (x : Fin K → Key) (i : Fin K) :
    slice (flatSeeds x) (i * 32) (i * 32 + 32) = (x i).1 := by
  have hi := i.2
  unfold flatSeeds
  rw [slice_tab _ _ _ _ (by omega)]
  apply List.ext_getElem
  · rw [tab_length, (x i).2]; omega
  · intro j h1 h2
    rw [tab_getElem]
    rw [tab_length] at h1
    have e1 : (i.1 * 32 + j) / 32 = i.1 := by omega
    have e2 : (i.1 * 32 + j) % 32 = j := by omega
    simp only [e1, e2, hi, dif_pos]

theorem flatSeeds_injective {K : ℕ} : Function.Injective (flatSeeds (K := K)) := by
  intro x y h
  funext i
  apply Subtype.ext
  rw [← slice_flatSeeds x i, ← slice_flatSeeds y i, h]

theorem flatSeeds_surj {K : ℕ} {l : Bytes} (hl : l.length = K * 32) : ∃ x : Fin K → Key, flatSeeds x = l := by
  have hi : ∀ i : Fin K, (slice l (i * 32) (i * 32 + 32)).length = 32 := fun i => by
    rw [slice_length _ _ _ (by have := i.2; omega)]
    omega
  let x : Fin K → Key := fun i => ⟨slice l (i * 32) (i * 32 + 32), hi i⟩
  refine ⟨x, ?_⟩
  apply List.ext_getElem
  · rw [flatSeeds_length, hl]
  · intro p h1 h2
    have hp : p / 32 < K := by omega
    have h3 : (slice l (p / 32 * 32) (p / 32 * 32 + 32))[p % 32]? = l[p]? := by
      unfold slice
      rw [List.getElem?_drop, List.getElem?_take]
      rw [if_pos (by omega), show p / 32 * 32 + p % 32 = p by omega]
    have h4 := hi ⟨p / 32, hp⟩
    simp only at h4
    rw [List.getElem?_eq_getElem (by omega), List.getElem?_eq_getElem h2] at h3
    have h5 : (flatSeeds x)[p]? = some (slice l (p / 32 * 32) (p / 32 * 32 + 32))[p % 32] := by
      unfold flatSeeds
      rw [tab_getElem? (by omega), dif_pos hp]
    rw [List.getElem?_eq_getElem h1] at h5
    exact (Option.some.inj h5).trans (Option.some.inj h3)

variable (P : Prio3 (XofTurboShake128 prims fuel) F Meas Agg) (ctx : Bytes) (h n : ℕ)

/-- The seeds of the Clients. -/
abbrev Seeds := Fin n → Fin P.numSeeds → Key

variable {P n} in
/-- The coins of the Clients. -/
def coinsAt (nonces : ℕ → Bytes) (X : Seeds P n) : ℕ → Coins := coinsOf nonces fun k => flatSeeds (X k)

variable {P n} in
theorem coinsAt_rand (nonces : ℕ → Bytes) (X : Seeds P n) (k : Fin n) : (coinsAt nonces X k).rand = flatSeeds (X k) := by
  unfold coinsAt coinsOf
  simp

variable {P n} in
theorem seedAt_coins (nonces : ℕ → Bytes) (X : Seeds P n) (k : Fin n) {i : ℕ} (hi : i < P.numSeeds) :
    seedAt P (coinsAt nonces X k).rand i = (X k ⟨i, hi⟩).1 := by
  rw [coinsAt_rand]
  exact slice_flatSeeds (X k) ⟨i, hi⟩

/-- The numbers of the seeds. -/
def shareIdx : ℕ := if 0 < P.flp.jointRandLen then 2 * (h - 1) else h - 1
def blindIdx : ℕ := if h = 0 then 2 * P.shares - 2 else 2 * (h - 1) + 1
def proveIdx : ℕ := P.numSeeds - 1

/-- The seeds that only the Client and Aggregator `h` know. -/
def SecretIdx (i : ℕ) : Prop :=
  (0 < h ∧ i = shareIdx P h) ∨ i = proveIdx P ∨ (0 < P.flp.jointRandLen ∧ i = blindIdx P h)

variable {P h n}

theorem share_eq (rand : Bytes) (j : ℕ) : Spec.shareSeed P rand j = seedAt P rand (shareIdx P j) := rfl
theorem blind_eq (rand : Bytes) (j : ℕ) : Spec.blindSeed P rand j = seedAt P rand (blindIdx P j) := rfl
theorem prove_eq (rand : Bytes) : Spec.proveSeed P rand = seedAt P rand (proveIdx P) := by
  unfold Spec.proveSeed proveIdx
  rw [numSeeds_eq]

section
variable (hs : 2 ≤ P.shares)
include hs

theorem shareIdx_lt {j : ℕ} (hj : j < P.shares) : shareIdx P j < P.numSeeds := by
  unfold shareIdx numSeeds; split <;> omega

theorem blindIdx_lt {j : ℕ} (hj : j < P.shares) (h0 : 0 < P.flp.jointRandLen) : blindIdx P j < P.numSeeds := by
  unfold blindIdx numSeeds; split <;> omega

theorem proveIdx_lt : proveIdx P < P.numSeeds := by
  unfold proveIdx numSeeds; split <;> omega

theorem shareIdx_public (_hh : h < P.shares) {j : ℕ} (hj : j < P.shares) (hjh : j ≠ h) (h0 : 0 < j) :
    ¬ SecretIdx P h (shareIdx P j) := by
  unfold SecretIdx shareIdx proveIdx blindIdx numSeeds
  split <;> split <;> omega

theorem blindIdx_public (hh : h < P.shares) {j : ℕ} (hj : j < P.shares) (hjh : j ≠ h) (h0 : 0 < P.flp.jointRandLen) :
    ¬ SecretIdx P h (blindIdx P j) := by
  unfold SecretIdx shareIdx proveIdx blindIdx numSeeds
  rw [if_pos h0, if_pos h0]
  split <;> split <;> omega

theorem secretIdx_lt (hh : h < P.shares) {i : ℕ} (hi : SecretIdx P h i) : i < P.numSeeds := by
  rcases hi with ⟨-, rfl⟩ | rfl | ⟨h0, rfl⟩
  · exact shareIdx_lt hs hh
  · exact proveIdx_lt hs
  · exact blindIdx_lt hs hh h0

end

variable (n) in
variable (P h) in
/-- The report and the number of the seed in a secret input. -/
def siteReport : Site F h n P.flp.jointRandLen P.flp.measLen → Fin n
  | .meas _ k => k
  | .proofs _ k => k
  | .prove k => k
  | .part _ k _ _ => k

variable (P h) in
def siteIdx : Site F h n P.flp.jointRandLen P.flp.measLen → ℕ
  | .meas _ _ => shareIdx P h
  | .proofs _ _ => shareIdx P h
  | .prove _ => proveIdx P
  | .part _ _ _ _ => blindIdx P h

theorem siteIdx_secret (s : Site F h n P.flp.jointRandLen P.flp.measLen) : SecretIdx P h (siteIdx P h s) := by
  cases s with
  | meas h0 => exact .inl ⟨h0, rfl⟩
  | proofs h0 => exact .inl ⟨h0, rfl⟩
  | prove => exact .inr (.inl rfl)
  | part h0 => exact .inr (.inr ⟨h0, rfl⟩)

variable {ctx}

theorem pos_seed (hctx : ctx.length + 8 < 2 ^ 16) {rs rs' : ℕ → Coins}
    {s s' : Site F h n P.flp.jointRandLen P.flp.measLen} (e : pos P ctx h n rs s = pos P ctx h n rs' s') :
    seedAt P (rs (siteReport P h n s)).rand (siteIdx P h s) = seedAt P (rs' (siteReport P h n s')).rand (siteIdx P h s') := by
  have hd : ∀ u, (tag P.id u ctx).length < 2 ^ 16 := fun u => by rw [tag_length]; omega
  have hl : ∀ i r, (seedAt P r i).length < 2 ^ 8 := fun i r => seedAt_length_lt r i
  cases s <;> cases s' <;> simp only [pos, in1, in2, in4, in7, prove_eq] at e <;>
    exact (turboInput_inj (hd _) (hd _) (hl _ _) (hl _ _) e).1

/-! ### The run with other secret seeds -/

section
variable (P ctx h n) (vk : Bytes) (m : ℕ → Meas) (nonces : ℕ → Bytes) (σ : QueryStrategy F)

/-- In move `t` the coalition evaluates the oracle at `x`. -/
def QueryAt (rs : ℕ → Coins) (T ans : Bytes → ℕ → UInt8) (t : ℕ) (x : Bytes) : Prop :=
  ∃ os vs, Sees True P vk ctx h n m rs vs os T ∧ ∃ R outs,
    playQ (Spec.aggregate P.vdaf ()) (reactTo n (fun k => (vs k).message) os) ans (σ (tab n vs)) t = .ok (R, outs) ∧
    σ (tab n vs) R = .query x

/-- Move `t` is the first one that evaluates the oracle at a secret input, which is the one given. -/
def FirstHit (rs : ℕ → Coins) (T : Bytes → ℕ → UInt8) (t : ℕ)
    (s : Site F h n P.flp.jointRandLen P.flp.measLen) : Prop :=
  QueryAt P ctx h n vk m σ rs T T t (pos P ctx h n rs s) ∧
    ∀ t' < t, ∀ s', ¬ QueryAt P ctx h n vk m σ rs T T t' (pos P ctx h n rs s')

end

variable {vk : Bytes} {m : ℕ → Meas} {nonces : ℕ → Bytes} {σ : QueryStrategy F}

theorem Sees.unique {rs : ℕ → Coins} {vs vs' : ℕ → Transcript F} {os os' : ℕ → List F} {T : Bytes → ℕ → UInt8}
    (h1 : Sees True P vk ctx h n m rs vs os T) (h2 : Sees True P vk ctx h n m rs vs' os' T) :
    tab n vs = tab n vs' ∧ reactTo n (fun k => (vs k).message) os = reactTo n (fun k => (vs' k).message) os' := by
  have key : ∀ k < n, vs k = vs' k ∧ os k = os' k := by
    intro k hk
    obtain ⟨t, e1, e2, seed, e3, -⟩ := h1 k hk
    obtain ⟨t', e1', e2', seed', e3', -⟩ := h2 k hk
    cases Except.ok.inj (e1.symm.trans e1')
    exact ⟨e2.symm.trans e2', (Prod.mk.inj (Option.some.inj (e3.symm.trans e3'))).1⟩
  refine ⟨tab_congr fun k hk => (key k hk).1, ?_⟩
  funext k m
  unfold reactTo
  by_cases hk : k < n
  · simp only [(key k hk).1, (key k hk).2]
  · simp [hk]

theorem QueryAt.unique {rs : ℕ → Coins} {T ans : Bytes → ℕ → UInt8} {t : ℕ} {x y : Bytes}
    (h1 : QueryAt P ctx h n vk m σ rs T ans t x) (h2 : QueryAt P ctx h n vk m σ rs T ans t y) : x = y := by
  obtain ⟨os, vs, a1, R, outs, a2, a3⟩ := h1
  obtain ⟨os', vs', b1, R', outs', b2, b3⟩ := h2
  obtain ⟨e1, e2⟩ := a1.unique b1
  rw [← e1, ← e2, a2] at b2
  cases b2
  rw [← e1, a3] at b3
  exact QueryMove.query.inj b3

section
variable (W : P.WF) (hctx : ctx.length + 8 < 2 ^ 16) (hh : h < P.shares) (hvk : vk.length = 32) {N : ℕ}
  (hN : fuel * PyField.encSize F ≤ N) (hN' : 32 ≤ N)
include W hctx hh hvk hN hN'

/-- The coalition sees the same, and the honest Aggregator has the same output shares. -/
theorem sees_transport {X X' : Seeds P n} {T T' : Bytes → ℕ → UInt8} {vs : ℕ → Transcript F} {os : ℕ → List F}
    (hn : ∀ k < n, (nonces k).length = 16)
    (hX : ∀ k i, ¬ SecretIdx P h i.1 → X' k i = X k i)
    (A : AgreeOff P ctx h T T')
    (hT : ∀ s, ∀ i < N, T' (pos P ctx h n (coinsAt nonces X') s) i = T (pos P ctx h n (coinsAt nonces X) s) i)
    {a : ℕ → List F} (he : ∀ k < n, P.flp.encode (m k) = .ok (a k)) (ha : ∀ k < n, (a k).length = P.flp.measLen)
    (hS : Sees True P vk ctx h n m (coinsAt nonces X) vs os T) :
    Sees True P vk ctx h n m (coinsAt nonces X') vs os T' := by
  intro k hk
  obtain ⟨t, k1, k2, seed, k3, k4⟩ := hS k hk
  have hsh := W.shares_ge
  obtain ⟨ms, ps, bl, prs, jrs, qrs, π, os', w, seed', part, W0⟩ :=
    world_of (W.runWith T) hctx (he k hk) (ha k hk) k1
  have hlt := W.shares_lt
  have hseed : ∀ {i} (hi : i < P.numSeeds), ¬ SecretIdx P h i →
      seedAt P (coinsAt nonces X' k).rand i = seedAt P (coinsAt nonces X k).rand i := by
    intro i hi hs
    rw [seedAt_coins nonces X' ⟨k, hk⟩ hi, seedAt_coins nonces X ⟨k, hk⟩ hi, hX _ _ hs]
  have hss : ∀ r j, (Spec.shareSeed P r j).length < 2 ^ 8 := fun r j => seedAt_length_lt _ _
  have hbs : ∀ r j, (Spec.blindSeed P r j).length < 2 ^ 8 := fun r j => seedAt_length_lt _ _
  have hps : ∀ r, (Spec.proveSeed P r).length < 2 ^ 8 := fun r => seedAt_length_lt _ _
  have hmsl : (ms h).length = P.flp.measLen := (W0.S.measSum.1 ⟨h, hh⟩).trans (ha k hk)
  obtain ⟨t1, e1, e2, e3⟩ := transport W hctx (rand' := (coinsAt nonces X' k).rand) A hh hvk (hn k hk) (by
      rw [coinsAt_rand nonces X' ⟨k, hk⟩, flatSeeds_length]; rfl) (he k hk) (ha k hk)
    (fun j hj hjh h0 => hseed (shareIdx_lt hsh hj) (shareIdx_public hsh hh hj hjh h0))
    (fun h0 j hj hjh => hseed (blindIdx_lt hsh hj h0) (blindIdx_public hsh hh hj hjh h0)) W0
    (by
      rw [proveRands_ev W hctx (hps _)]
      refine Ev.congr hN (fun i hi => ?_) ((proveRands_ev W hctx (hps _)).1 W0.prsOk)
      exact (hT (.prove ⟨k, hk⟩) i hi).symm)
    (fun h0 => by
      rw [measShare_ev W hctx (by omega) (hss _ h)]
      refine Ev.congr hN (fun i hi => ?_)
        ((measShare_ev W hctx (by omega) (hss _ h)).1 (W0.S.helper W0.helpers h0 hh).2.1)
      exact (hT (.meas h0 ⟨k, hk⟩) i hi).symm)
    (fun h0 => by
      rw [proofsShare_ev W hctx (by omega) (hss _ h)]
      refine Ev.congr hN (fun i hi => ?_)
        ((proofsShare_ev W hctx (by omega) (hss _ h)).1 (W0.S.helper W0.helpers h0 hh).2.2.1)
      exact (hT (.proofs h0 ⟨k, hk⟩) i hi).symm)
    (fun h0 => by
      rw [jointRandPart_val W hctx (by omega) (hbs _ h), jointRandPart_val W hctx (by omega) (hbs _ h)]
      congr 1
      exact bytesAt_congr fun i hi => hT (.part h0 ⟨k, hk⟩ (ms h) hmsl) i (by omega))
  refine ⟨t1, e1, e2.trans k2, seed, by rw [e3, k3], fun _ => ?_⟩
  rw [k4 trivial]
  exact (congrArg Transcript.message e2).symm

end
end Prio3
end Vdaf
