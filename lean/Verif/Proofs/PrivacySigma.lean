import Verif.Proofs.PrivacyStep
import Verif.Props.Flp

/-! The map of oracles under which the coalition sees the same for two batches of measurements. -/

set_option linter.unusedSectionVars false

namespace Vdaf
open Finset Spec

section
variable {F : Type} [NttField F]

open Classical in
/-- The elements expanded from a stream. -/
noncomputable def evOf (F : Type) [PyField F] (fuel n : ℕ) (s : ℕ → UInt8) : List F :=
  if h : ∃ v, Ev F fuel n s v then h.choose else []

theorem evOf_eq {fuel n : ℕ} {s : ℕ → UInt8} {v : List F} (h : Ev F fuel n s v) : evOf F fuel n s = v := by
  have hx : ∃ v, Ev F fuel n s v := ⟨v, h⟩
  unfold evOf
  rw [dif_pos hx]
  exact hx.choose_spec.unique h

theorem ofFn_coef {n : ℕ} {l : List F} (h : l.length = n) : (List.ofFn fun k : Fin n => coef l k) = l := by
  subst h
  apply List.ext_getElem (by simp)
  intro i h1 h2
  simp [coef]

/-- Bijections of the blocks of a vector. -/
def Phi {m : ℕ} (k : ℕ) (e : ℕ → (Fin m → F) ≃ (Fin m → F)) (r : List F) : List F :=
  (List.range k).flatMap fun i => List.ofFn (e i fun j => coef (blk m r i) j)

theorem Phi_length {m k : ℕ} (e : ℕ → (Fin m → F) ≃ (Fin m → F)) (r : List F) : (Phi k e r).length = m * k :=
  flatMap_range_length fun i _ => by simp

theorem blk_Phi {m k i : ℕ} (e : ℕ → (Fin m → F) ≃ (Fin m → F)) (r : List F) (hi : i < k) :
    blk m (Phi k e r) i = List.ofFn (e i fun j => coef (blk m r i) j) :=
  blk_flatMap (fun i _ => by simp) hi

theorem blks_ext {m k : ℕ} {r r' : List F} (hr : r.length = m * k) (hr' : r'.length = m * k)
    (h : ∀ i < k, blk m r i = blk m r' i) : r = r' := by
  rw [← flatMap_blk hr, ← flatMap_blk hr', List.flatMap_def, List.flatMap_def]
  congr 1
  exact List.map_congr_left fun i hi => h i (List.mem_range.1 hi)

theorem Phi_inj {m k : ℕ} (e : ℕ → (Fin m → F) ≃ (Fin m → F)) {r r' : List F} (hr : r.length = m * k)
    (hr' : r'.length = m * k) (h : Phi k e r = Phi k e r') : r = r' := by
  refine blks_ext hr hr' fun i hi => ?_
  have h1 := congrArg (fun l => blk m l i) h
  simp only [blk_Phi e _ hi] at h1
  have h2 := (e i).injective (List.ofFn_injective h1)
  rw [← ofFn_coef (blk_length' hr hi), ← ofFn_coef (blk_length' hr' hi)]
  exact congrArg List.ofFn h2

theorem shift_inj {u u' a b : List F} (h : shift u a b = shift u' a b) : u = u' := by
  have := congrArg (fun v => shift v b a) h
  simpa only [shift_shift] using this

theorem retarget_inj {fuel n : ℕ} {v v1 : List F} {s s' : ℕ → UInt8} (h1 : v1.length = n) (h : Ev F fuel n s v)
    (h' : Ev F fuel n s' v) (he : retarget fuel v v1 s = retarget fuel v v1 s') : s = s' := by
  rw [← retarget_back h1 h, he, retarget_back h1 h']

theorem bytesAt_congr {s s' : ℕ → UInt8} {p k : ℕ} (h : ∀ i < p + k, s i = s' i) : bytesAt s p k = bytesAt s' p k := by
  unfold bytesAt
  exact List.map_congr_left fun i hi => h _ (by have := List.mem_range.1 hi; omega)

end

namespace Prio3
variable {F : Type} [NttField F] {Meas Agg : Type} {prims : Prims} {fuel : ℕ}

/-- The secret inputs of a batch. -/
inductive Site (F : Type) (h n jrl ml : ℕ)
  | meas (h0 : 0 < h) (k : Fin n)
  | proofs (h0 : 0 < h) (k : Fin n)
  | prove (k : Fin n)
  | part (h0 : 0 < jrl) (k : Fin n) (v : List F) (hv : v.length = ml)

variable (P : Prio3 (XofTurboShake128 prims fuel) F Meas Agg) (ctx : Bytes) (h n : ℕ) (rs : ℕ → Coins)

def in1 (k : ℕ) : Bytes := turboInput (shareSeed P (rs k).rand h) (tag P.id 1 ctx) [UInt8.ofNat h]
def in2 (k : ℕ) : Bytes :=
  turboInput (shareSeed P (rs k).rand h) (tag P.id 2 ctx) [UInt8.ofNat P.proofs, UInt8.ofNat h]
def in4 (k : ℕ) : Bytes := turboInput (proveSeed P (rs k).rand) (tag P.id 4 ctx) [UInt8.ofNat P.proofs]
def in7 (k : ℕ) (v : List F) : Bytes :=
  turboInput (blindSeed P (rs k).rand h) (tag P.id 7 ctx) (UInt8.ofNat h :: ((rs k).nonce ++ encAll v))

def pos : Site F h n P.flp.jointRandLen P.flp.measLen → Bytes
  | .meas _ k => in1 P ctx h rs k
  | .proofs _ k => in2 P ctx h rs k
  | .prove k => in4 P ctx rs k
  | .part _ k v _ => in7 P ctx h rs k v

theorem mem_batchSecrets {m : Bytes} : m ∈ batchSecrets P ctx h n rs ↔ ∃ s, pos P ctx h n rs s = m := by
  constructor
  · rintro ⟨k, hk, ⟨h0, rfl⟩ | ⟨h0, rfl⟩ | rfl | ⟨h0, v, e, hv, he, rfl⟩⟩
    · exact ⟨.meas h0 ⟨k, hk⟩, rfl⟩
    · exact ⟨.proofs h0 ⟨k, hk⟩, rfl⟩
    · exact ⟨.prove ⟨k, hk⟩, rfl⟩
    · rw [encodeVec_eq] at he
      cases he
      exact ⟨.part h0 ⟨k, hk⟩ v hv, rfl⟩
  · rintro ⟨s, rfl⟩
    cases s with
    | meas h0 k => exact ⟨k, k.2, .inl ⟨h0, rfl⟩⟩
    | proofs h0 k => exact ⟨k, k.2, .inr (.inl ⟨h0, rfl⟩)⟩
    | prove k => exact ⟨k, k.2, .inr (.inr (.inl rfl))⟩
    | part h0 k v hv => exact ⟨k, k.2, .inr (.inr (.inr ⟨h0, v, _, hv, encodeVec_eq v, rfl⟩))⟩

variable {P ctx h n rs}

theorem pos_inj (W : P.WF) (hctx : ctx.length + 8 < 2 ^ 16) (hf : FreshCoins P h n rs) :
    Function.Injective (pos P ctx h n rs) := by
  have hd : ∀ u, (tag P.id u ctx).length < 2 ^ 16 := fun u => by rw [tag_length]; omega
  have key : ∀ {s s' b b' : Bytes} {u u' : ℕ}, s.length < 2 ^ 8 → s'.length < 2 ^ 8 → u < 8 → u' < 8 →
      turboInput s (tag P.id u ctx) b = turboInput s' (tag P.id u' ctx) b' → u = u' ∧ s = s' ∧ b = b' := by
    intro s s' b b' u u' h1 h2 h3 h4 e
    obtain ⟨e1, e2, e3⟩ := turboInput_inj (hd _) (hd _) h1 h2 e
    exact ⟨tag_usage W (by omega) (by omega) e2, e1, e3⟩
  have hl : ∀ i r, (seedAt P r i).length < 2 ^ 8 := fun i r => seedAt_length_lt r i
  intro s s' e
  have ext : ∀ {k l : Fin n}, (k.1 ≠ l.1 → False) → k = l := fun {k l} hkl => Fin.ext (not_not.1 hkl)
  cases s <;> cases s' <;> simp only [pos, in1, in2, in4, in7] at e <;>
    obtain ⟨eu, es, eb⟩ := key (hl _ _) (hl _ _) (by norm_num) (by norm_num) e <;> try omega
  · next h0 k _ l =>
    obtain rfl : k = l := ext fun hkl => (hf.2 k k.2 l l.2 hkl).1 h0 es
    rfl
  · next h0 k _ l =>
    obtain rfl : k = l := ext fun hkl => (hf.2 k k.2 l l.2 hkl).1 h0 es
    rfl
  · next k l =>
    obtain rfl : k = l := ext fun hkl => (hf.2 k k.2 l l.2 hkl).2.1 es
    rfl
  · next h0 k v hv _ l v' hv' =>
    have h1 := List.append_inj (List.cons.inj eb).2 ((hf.1 k k.2).1.trans (hf.1 l l.2).1.symm)
    obtain rfl : k = l := ext fun hkl => ((hf.2 k k.2 l l.2 hkl).2.2 h0).elim (fun hc => hc es) fun hc => hc h1.1
    obtain rfl := encAll_inj h1.2
    rfl

/-! ### The map -/

section
variable (P ctx h n rs) (a0 a1 jrs : ℕ → List F)
  (e : ℕ → ℕ → (Fin P.flp.proveRandLen → F) ≃ (Fin P.flp.proveRandLen → F))

/-- The proofs for given randomness. -/
noncomputable def proofsOf (a jr r : List F) (i : ℕ) : List F :=
  okVal (P.flp.prove a (blk P.flp.proveRandLen r i) (blk P.flp.jointRandLen jr i))

noncomputable def flatProofs (a jr r : List F) : List F := (List.range P.proofs).flatMap (proofsOf P a jr r)

/-- The streams at the secret inputs for the second batch. -/
noncomputable def sval (T : Bytes → ℕ → UInt8) : Site F h n P.flp.jointRandLen P.flp.measLen → ℕ → UInt8
  | .meas _ k =>
    let s := T (in1 P ctx h rs k)
    let u := evOf F fuel P.flp.measLen s
    retarget fuel u (shift u (a0 k) (a1 k)) s
  | .proofs _ k =>
    let s := T (in2 P ctx h rs k)
    let p := evOf F fuel (P.proofLen * P.proofs) s
    let r := evOf F fuel (P.flp.proveRandLen * P.proofs) (T (in4 P ctx rs k))
    retarget fuel p (shift p (flatProofs P (a0 k) (jrs k) r) (flatProofs P (a1 k) (jrs k) (Phi P.proofs (e k) r))) s
  | .prove k =>
    let s := T (in4 P ctx rs k)
    let r := evOf F fuel (P.flp.proveRandLen * P.proofs) s
    retarget fuel r (Phi P.proofs (e k) r) s
  | .part _ k v _ => fun i =>
    if i < 32 then T (in7 P ctx h rs k (shift v (a1 k) (a0 k))) i else T (in7 P ctx h rs k v) i

/-- The oracle for the second batch. -/
noncomputable def sigma (T : Bytes → ℕ → UInt8) : Bytes → ℕ → UInt8 :=
  Function.extend (pos P ctx h n rs) (sval P ctx h n rs a0 a1 jrs e T) T

variable {P ctx h n rs a0 a1 jrs e} {T T' : Bytes → ℕ → UInt8}

theorem sigma_off {m : Bytes} (hm : m ∉ batchSecrets P ctx h n rs) : sigma P ctx h n rs a0 a1 jrs e T m = T m :=
  Function.extend_apply' _ _ _ fun hx => hm ((mem_batchSecrets ..).2 hx)

theorem sigma_agree : AgreeOff P ctx h T (sigma P ctx h n rs a0 a1 jrs e T) := fun _ hm =>
  sigma_off fun ⟨_, _, hx⟩ => hm _ _ hx

theorem sval_beyond {N i : ℕ} (hN : 32 ≤ N) (hN' : fuel * PyField.encSize F ≤ N) (hi : N ≤ i)
    (s : Site F h n P.flp.jointRandLen P.flp.measLen) :
    sval P ctx h n rs a0 a1 jrs e T s i = T (pos P ctx h n rs s) i := by
  cases s with
  | meas | proofs | prove => exact retarget_beyond (hN'.trans hi)
  | part => exact if_neg (by omega)

variable (W : P.WF) (hctx : ctx.length + 8 < 2 ^ 16) (hf : FreshCoins P h n rs)
include W hctx hf

theorem sigma_pos (s : Site F h n P.flp.jointRandLen P.flp.measLen) :
    sigma P ctx h n rs a0 a1 jrs e T (pos P ctx h n rs s) = sval P ctx h n rs a0 a1 jrs e T s :=
  (pos_inj W hctx hf).extend_apply _ _ _

theorem sigma_oracles {N : ℕ} (hN : 32 ≤ N) (hN' : fuel * PyField.encSize F ≤ N)
    (hT : T ∈ oracles prims (batchSecrets P ctx h n rs) N) :
    sigma P ctx h n rs a0 a1 jrs e T ∈ oracles prims (batchSecrets P ctx h n rs) N := by
  intro m i hm
  by_cases hs : m ∈ batchSecrets P ctx h n rs
  · refine ⟨hs, not_le.1 fun hi => ?_⟩
    obtain ⟨s, rfl⟩ := (mem_batchSecrets ..).1 hs
    rw [sigma_pos W hctx hf, sval_beyond hN hN' hi] at hm
    have := (hT _ _ hm).2
    omega
  · rw [sigma_off hs] at hm
    exact hT _ _ hm

/-- The second batch, with the oracle of the second batch. -/
theorem sigma_step {vk : Bytes} (hh : h < P.shares) (hvk : vk.length = 32) {k : ℕ} (hk : k < n) {m1 : Meas}
    (he1 : P.flp.encode m1 = .ok (a1 k)) (ha0 : (a0 k).length = P.flp.measLen) (ha1 : (a1 k).length = P.flp.measLen)
    (htr : ∀ v : List F, v.length = P.flp.measLen → ∃ o, P.flp.truncate v = .ok o)
    {t : Spec.Transcript F} {ms ps : ℕ → List F} {bl : ℕ → Option Bytes} {prs qrs : List F}
    {π os w : ℕ → List F} {seed : Option Bytes} {part : ℕ → Option Bytes}
    (W0 : World (runWith P T) vk ctx (rs k).nonce (rs k).rand (a0 k) t ms ps bl prs (jrs k) qrs π os w seed part)
    (hE : ∀ i < P.proofs, ∀ pr, ∃ π π' v,
      P.flp.prove (a0 k) (List.ofFn pr) (blk P.flp.jointRandLen (jrs k) i) = .ok π ∧
      P.flp.prove (a1 k) (List.ofFn (e k i pr)) (blk P.flp.jointRandLen (jrs k) i) = .ok π' ∧
      P.flp.query (a0 k) π (blk P.flp.queryRandLen qrs i) (blk P.flp.jointRandLen (jrs k) i) 1 = .ok v ∧
      P.flp.query (a1 k) π' (blk P.flp.queryRandLen qrs i) (blk P.flp.jointRandLen (jrs k) i) 1 = .ok v) :
    ∃ t1, Spec.transcript (runWith P (sigma P ctx h n rs a0 a1 jrs e T)) vk ctx m1 (rs k).nonce (rs k).rand = .ok t1 ∧
      t1.view h = t.view h ∧
      ∃ o, P.flp.truncate (shift (ms h) (a0 k) (a1 k)) = .ok o ∧ t1.states[h]? = some (o, seed) := by
  have hlt := W.shares_lt
  have hss : ∀ j, (shareSeed P (rs k).rand j).length < 2 ^ 8 := fun j => seedAt_length_lt _ _
  have hbs : ∀ j, (blindSeed P (rs k).rand j).length < 2 ^ 8 := fun j => seedAt_length_lt _ _
  have hps : (proveSeed P (rs k).rand).length < 2 ^ 8 := seedAt_length_lt _ _
  have hr0 := (proveRands_ev W hctx hps).1 W0.prsOk
  have hrl : prs.length = P.flp.proveRandLen * P.proofs := hr0.1
  have hr : evOf F fuel (P.flp.proveRandLen * P.proofs) (T (in4 P ctx rs k)) = prs := evOf_eq hr0
  have hmsl : (ms h).length = P.flp.measLen := (W0.S.measSum.1 ⟨h, hh⟩).trans ha0
  have hpi : ∀ i < P.proofs, proofsOf P (a0 k) (jrs k) prs i = π i := fun i hi => okVal_eq (W0.S.prove i hi).1
  have hpi' : ∀ i < P.proofs, P.flp.prove (a1 k) (blk P.flp.proveRandLen (Phi P.proofs (e k) prs) i)
      (blk P.flp.jointRandLen (jrs k) i) = .ok (proofsOf P (a1 k) (jrs k) (Phi P.proofs (e k) prs) i) := by
    intro i hi
    obtain ⟨_, π', _, -, h2, -⟩ := hE i hi fun j => coef (blk P.flp.proveRandLen prs i) j
    rw [← blk_Phi (e k) prs hi] at h2
    unfold proofsOf
    rw [okVal_eq h2, h2]
  refine step W hctx (T := T) sigma_agree hh hvk (hf.1 k hk).1 (hf.1 k hk).2 he1 ha0 ha1 htr W0
    (prs' := Phi P.proofs (e k) prs) (π' := proofsOf P (a1 k) (jrs k) (Phi P.proofs (e k) prs)) ?_ hpi' ?_ ?_ ?_ ?_
  · rw [proveRands_ev W hctx hps]
    have := sigma_pos (a0 := a0) (a1 := a1) (jrs := jrs) (e := e) (T := T) W hctx hf (.prove ⟨k, hk⟩)
    simp only [pos, in4] at this
    rw [this]
    simp only [sval, hr]
    exact retarget_ev (Phi_length _ _) hr0
  · intro i hi
    obtain ⟨π1, π', v, h1, h2, h3, h4⟩ := hE i hi fun j => coef (blk P.flp.proveRandLen prs i) j
    rw [ofFn_coef (blk_length' hrl hi)] at h1
    rw [← blk_Phi (e k) prs hi] at h2
    have e1 : π1 = π i := Except.ok.inj (h1.symm.trans (W0.S.prove i hi).1)
    have e2 := Except.ok.inj (h2.symm.trans (hpi' i hi))
    rw [← e1, ← e2]
    exact ⟨v, h3, h4⟩
  · intro h0
    rw [measShare_ev W hctx (by omega) (hss h)]
    have hm := (measShare_ev W hctx (by omega) (hss h)).1 (W0.S.helper W0.helpers h0 hh).2.1
    have := sigma_pos (a0 := a0) (a1 := a1) (jrs := jrs) (e := e) (T := T) W hctx hf (.meas h0 ⟨k, hk⟩)
    simp only [pos, in1] at this
    rw [this]
    simp only [sval, in1]
    rw [evOf_eq hm]
    exact retarget_ev ((shift_length ..).trans hmsl) hm
  · intro h0
    rw [proofsShare_ev W hctx (by omega) (hss h)]
    have hm := (proofsShare_ev W hctx (by omega) (hss h)).1 (W0.S.helper W0.helpers h0 hh).2.2.1
    have := sigma_pos (a0 := a0) (a1 := a1) (jrs := jrs) (e := e) (T := T) W hctx hf (.proofs h0 ⟨k, hk⟩)
    simp only [pos, in2] at this
    rw [this]
    simp only [sval, in2, hr]
    rw [evOf_eq hm]
    have e1 : flatProofs P (a0 k) (jrs k) prs = (List.range P.proofs).flatMap π := by
      unfold flatProofs
      rw [List.flatMap_def, List.flatMap_def]
      congr 1
      exact List.map_congr_left fun i hi => hpi i (List.mem_range.1 hi)
    rw [e1]
    exact retarget_ev ((shift_length ..).trans hm.1) hm
  · intro h0
    rw [jointRandPart_val W hctx (by omega) (hbs h), jointRandPart_val W hctx (by omega) (hbs h)]
    have := sigma_pos (a0 := a0) (a1 := a1) (jrs := jrs) (e := e) (T := T) W hctx hf
      (.part h0 ⟨k, hk⟩ (shift (ms h) (a0 k) (a1 k)) ((shift_length ..).trans hmsl))
    simp only [pos, in7] at this
    rw [this]
    congr 1
    refine bytesAt_congr fun i hi => ?_
    simp only [sval, in7]
    rw [if_pos (by omega), shift_shift]

/-- Injectivity. -/
theorem sigma_inj {vk : Bytes} (hh : h < P.shares)
    (hT : ∀ k < n, ∃ t ms ps bl prs jr qrs π os w seed part,
      World (runWith P T) vk ctx (rs k).nonce (rs k).rand (a0 k) t ms ps bl prs jr qrs π os w seed part)
    (hT' : ∀ k < n, ∃ t ms ps bl prs jr qrs π os w seed part,
      World (runWith P T') vk ctx (rs k).nonce (rs k).rand (a0 k) t ms ps bl prs jr qrs π os w seed part)
    (heq : sigma P ctx h n rs a0 a1 jrs e T = sigma P ctx h n rs a0 a1 jrs e T') : T = T' := by
  have hlt := W.shares_lt
  have hss : ∀ k, (shareSeed P (rs k).rand h).length < 2 ^ 8 := fun j => seedAt_length_lt _ _
  have hps : ∀ k, (proveSeed P (rs k).rand).length < 2 ^ 8 := fun _ => seedAt_length_lt _ _
  have hsv : ∀ s, sval P ctx h n rs a0 a1 jrs e T s = sval P ctx h n rs a0 a1 jrs e T' s := by
    intro s
    rw [← sigma_pos W hctx hf, ← sigma_pos W hctx hf, heq]
  have h4 : ∀ k < n, ∃ r, Ev F fuel (P.flp.proveRandLen * P.proofs) (T (in4 P ctx rs k)) r ∧
      Ev F fuel (P.flp.proveRandLen * P.proofs) (T' (in4 P ctx rs k)) r := by
    intro k hk
    obtain ⟨_, _, _, _, r, _, _, _, _, _, _, _, W0⟩ := hT k hk
    obtain ⟨_, _, _, _, r', _, _, _, _, _, _, _, W0'⟩ := hT' k hk
    have e1 : Ev F fuel _ (T (in4 P ctx rs k)) r := (proveRands_ev W hctx (hps k)).1 W0.prsOk
    have e2 : Ev F fuel _ (T' (in4 P ctx rs k)) r' := (proveRands_ev W hctx (hps k)).1 W0'.prsOk
    have h1 := hsv (.prove ⟨k, hk⟩)
    simp only [sval] at h1
    rw [evOf_eq e1, evOf_eq e2] at h1
    have e3 := retarget_ev (v' := Phi P.proofs (e k) r) (Phi_length _ _) e1
    have e4 := retarget_ev (v' := Phi P.proofs (e k) r') (Phi_length _ _) e2
    rw [h1] at e3
    have e5 := Phi_inj (e k) e1.1 e2.1 (e3.unique e4)
    subst e5
    exact ⟨r, e1, e2⟩
  funext m
  by_cases hs : m ∈ batchSecrets P ctx h n rs
  swap
  · rw [← sigma_off (T := T) hs, heq, sigma_off hs]
  obtain ⟨s, rfl⟩ := (mem_batchSecrets ..).1 hs
  have h1 := hsv s
  cases s with
  | meas h0 k =>
    obtain ⟨_, _, _, _, _, _, _, _, _, _, _, _, W0⟩ := hT k k.2
    obtain ⟨_, _, _, _, _, _, _, _, _, _, _, _, W0'⟩ := hT' k k.2
    have e1 := (measShare_ev W hctx (by omega) (hss k)).1 (W0.S.helper W0.helpers h0 hh).2.1
    have e2 := (measShare_ev W hctx (by omega) (hss k)).1 (W0'.S.helper W0'.helpers h0 hh).2.1
    simp only [sval, pos, in1] at h1 ⊢
    rw [evOf_eq e1, evOf_eq e2] at h1
    have e3 := retarget_ev ((shift_length _ (a0 k) (a1 k)).trans e1.1) e1
    have e4 := retarget_ev ((shift_length _ (a0 k) (a1 k)).trans e2.1) e2
    rw [h1] at e3
    have e5 := shift_inj (e3.unique e4)
    rw [e5] at h1 e1
    exact retarget_inj ((shift_length ..).trans e1.1) e1 e2 h1
  | proofs h0 k =>
    obtain ⟨_, _, _, _, _, _, _, _, _, _, _, _, W0⟩ := hT k k.2
    obtain ⟨_, _, _, _, _, _, _, _, _, _, _, _, W0'⟩ := hT' k k.2
    have e1 := (proofsShare_ev W hctx (by omega) (hss k)).1 (W0.S.helper W0.helpers h0 hh).2.2.1
    have e2 := (proofsShare_ev W hctx (by omega) (hss k)).1 (W0'.S.helper W0'.helpers h0 hh).2.2.1
    obtain ⟨r, r1, r2⟩ := h4 k k.2
    simp only [sval, pos, in2] at h1 ⊢
    rw [evOf_eq e1, evOf_eq e2, evOf_eq r1, evOf_eq r2] at h1
    have e3 := retarget_ev ((shift_length _ (flatProofs P (a0 k) (jrs k) r)
      (flatProofs P (a1 k) (jrs k) (Phi P.proofs (e k) r))).trans e1.1) e1
    have e4 := retarget_ev ((shift_length _ (flatProofs P (a0 k) (jrs k) r)
      (flatProofs P (a1 k) (jrs k) (Phi P.proofs (e k) r))).trans e2.1) e2
    rw [h1] at e3
    have e5 := shift_inj (e3.unique e4)
    rw [e5] at h1 e1
    exact retarget_inj ((shift_length ..).trans e1.1) e1 e2 h1
  | prove k =>
    obtain ⟨r, r1, r2⟩ := h4 k k.2
    simp only [sval, pos] at h1 ⊢
    rw [evOf_eq r1, evOf_eq r2] at h1
    exact retarget_inj (Phi_length _ _) r1 r2 h1
  | part h0 k v hv =>
    funext i
    simp only [sval, pos] at h1 ⊢
    by_cases hi : i < 32
    · have h2 := hsv (.part h0 k (shift v (a0 k) (a1 k)) ((shift_length ..).trans hv))
      have h3 := congrFun h2 i
      simp only [sval, if_pos hi, shift_shift] at h3
      exact h3
    · have h3 := congrFun h1 i
      simpa only [if_neg hi] using h3

end
end Prio3
end Vdaf
