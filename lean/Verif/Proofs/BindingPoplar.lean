import Verif.Proofs.BindingJoint
import Verif.Proofs.PingPongRobustPoplar
import Verif.Proofs.PoplarIdeal
import Verif.Proofs.Poplar1Game

/-! A report of Poplar1 that is presented for another application context or with another nonce. -/

set_option linter.unusedSectionVars false

namespace Vdaf
open Finset
open Spec (tag withOracle crossOutShares broadcast poplarIdpf levelKind bytesAt sample firstCorrInput)

attribute [local instance] bytesFintype

section
variable {F : Type} [PyField F]

/-- Sampling in terms of the chunks -/
theorem sampS_chunks {s : ℕ → UInt8} {fuel pos n : ℕ} {v : List F} {p : ℕ} (h : sampS F s fuel pos n = .ok (v, p)) :
    ∃ k ≤ fuel, p = pos + k * PyField.encSize F ∧
      ((List.range k).map fun i => bytesAt s (pos + i * PyField.encSize F) (PyField.encSize F)).filterMap (sample F) = v := by
  induction fuel generalizing pos n v with
  | zero =>
    cases n with
    | zero => cases h; exact ⟨0, le_rfl, by simp, rfl⟩
    | succ n => cases h
  | succ fuel ih =>
    have step : ∀ (k : ℕ) (w : List F), ((List.range k).map fun i =>
        bytesAt s (pos + PyField.encSize F + i * PyField.encSize F) (PyField.encSize F)).filterMap (sample F) = w →
        ((List.range (k + 1)).map fun i => bytesAt s (pos + i * PyField.encSize F) (PyField.encSize F)).filterMap (sample F) =
          (sample F (bytesAt s pos (PyField.encSize F))).toList ++ w := by
      intro k w hw
      rw [List.range_succ_eq_map, List.map_cons, List.map_map, ← hw]
      have e : (List.range k).map ((fun i => bytesAt s (pos + i * PyField.encSize F) (PyField.encSize F)) ∘ Nat.succ) =
          (List.range k).map fun i => bytesAt s (pos + PyField.encSize F + i * PyField.encSize F) (PyField.encSize F) := by
        apply List.map_congr_left
        intro i _
        simp only [Function.comp, Nat.succ_eq_add_one]
        congr 1
        ring
      rw [e, Nat.zero_mul, Nat.add_zero]
      cases hx : sample F (bytesAt s pos (PyField.encSize F)) with
      | none => rw [List.filterMap_cons_none hx]; rfl
      | some x => rw [List.filterMap_cons_some hx]; rfl
    cases n with
    | zero => cases h; exact ⟨0, by omega, by simp, rfl⟩
    | succ n =>
      cases hx : sample F (bytesAt s pos (PyField.encSize F)) with
      | none =>
        rw [sampS_none hx] at h
        obtain ⟨k, h1, h2, h3⟩ := ih h
        refine ⟨k + 1, by omega, by rw [h2]; ring, ?_⟩
        rw [step k v h3, hx]
        rfl
      | some x =>
        rw [sampS_some hx, Except.bind_eq_ok] at h
        obtain ⟨⟨w, q⟩, h4, h5⟩ := h
        cases h5
        obtain ⟨k, h1, h2, h3⟩ := ih h4
        refine ⟨k + 1, by omega, by dsimp only at h2 ⊢; rw [h2]; ring, ?_⟩
        rw [step k w h3, hx]
        rfl

/-- Sampling twice -/
theorem sampS_twice {s : ℕ → UInt8} {fuel n n' : ℕ} {v v' : List F} {p p' : ℕ} (h : sampS F s fuel 0 n = .ok (v, p))
    (h' : sampS F s fuel p n' = .ok (v', p')) : Ev F (2 * fuel) (n + n') s (v ++ v') := by
  obtain ⟨k, h1, h2, h3⟩ := sampS_chunks h
  obtain ⟨k', h1', h2', h3'⟩ := sampS_chunks h'
  refine ⟨by rw [List.length_append, (sampS_ok h).1, (sampS_ok h').1],
    ((chunksOf F (2 * fuel) s).drop (k + k')).filterMap (sample F), ?_⟩
  conv_lhs => rw [← List.take_append_drop (k + k') (chunksOf F (2 * fuel) s)]
  rw [List.filterMap_append, chunksOf_take (by omega)]
  congr 1
  rw [← h3, ← h3']
  unfold chunksOf
  rw [List.range_add, List.map_append, List.filterMap_append, List.map_map]
  congr 2
  · simp
  · apply List.map_congr_left
    intro i _
    simp only [Function.comp]
    congr 1
    rw [h2]
    ring

end

namespace PO
variable {prims : Prims} {fuel bits : ℕ}

/-- The purpose of the correlated randomness for a level -/
def corrUse (bits level : ℕ) : ℕ := if level + 1 < bits then 2 else 3
/-- The elements for the levels before -/
def corrPre (bits level : ℕ) : ℕ := if level + 1 < bits then 3 * level else 0

theorem corrUse_cases (bits level : ℕ) : corrUse bits level = 2 ∨ corrUse bits level = 3 := by
  unfold corrUse
  split <;> simp

theorem corrShares_sampS {ctx nonce seed : Bytes} (hc : Idpf.CtxOk ctx) (hs : seed.length = 32) {j : ℕ} (hj : j < 2) (level : ℕ) :
    (⟨poplarIdpf bits⟩ : Poplar1).corrShares prims fuel ctx j level nonce seed =
      (sampS (Fk (levelKind bits level)) (Spec.turboStream prims seed (tag 6 (corrUse bits level) ctx) (UInt8.ofNat j :: nonce))
        fuel 0 (corrPre bits level) >>= fun r =>
      sampS (Fk (levelKind bits level)) (Spec.turboStream prims seed (tag 6 (corrUse bits level) ctx) (UInt8.ofNat j :: nonce))
        fuel r.2 3 >>= fun v => .ok v.1) := by
  have hb : byte j = .ok [UInt8.ofNat j] := Prio3.byte_ok_iff.2 ⟨by omega, rfl⟩
  unfold Poplar1.corrShares Poplar1.corrXof Poplar1.xof corrUse corrPre
  have hbits : (⟨poplarIdpf bits⟩ : Poplar1).idpf.bits = bits := rfl
  by_cases hl : level < bits - 1
  · rw [if_pos (by rw [hbits]; exact hl), if_pos (by omega), if_pos (by omega)]
    obtain ⟨dst, hd, hdl⟩ := Poplar1.dst_ok (show USAGE_CORR_INNER < 2 ^ 16 by decide) hc
    rw [hd, hb]
    simp only [Except.ok_bind']
    rw [turbo_init, if_pos hdl, if_pos (by omega)]
    have hc : ∀ (X : Xof) (st : X.State), (do
        let x ← (do
          let x ← (.ok st : Res X.State)
          let (_, x) ← X.nextVec (Fk (levelKind bits level)) fuel x (3 * level)
          return x)
        let (v, _) ← X.nextVec (Fk (levelKind bits level)) fuel x 3
        return v : Res (List (Fk (levelKind bits level)))) = (do
        let y ← X.nextVec (Fk (levelKind bits level)) fuel st (3 * level)
        let z ← X.nextVec (Fk (levelKind bits level)) fuel y.2 3
        return z.1) := by
      intro X st
      rw [Except.ok_bind', bind_assoc]
      cases X.nextVec (Fk (levelKind bits level)) fuel st (3 * level) <;> rfl
    refine (hc (XofTurboShake128 prims fuel) (⟨turboInput seed dst ([UInt8.ofNat j] ++ nonce), 0⟩ : TurboShakeState)).trans ?_
    rw [turbo_sampS]
    have hst : prims.turboShake (turboInput seed dst ([UInt8.ofNat j] ++ nonce)) 1 =
        Spec.turboStream prims seed (tag 6 2 ctx) (UInt8.ofNat j :: nonce) := by
      rw [Poplar1.dst_eq hd]
      rfl
    rw [hst]
    cases h1 : sampS (Fk (levelKind bits level)) (Spec.turboStream prims seed (tag 6 2 ctx) (UInt8.ofNat j :: nonce))
        fuel 0 (3 * level) with
    | error e => rfl
    | ok r =>
      show ((XofTurboShake128 prims fuel).nextVec (Fk (levelKind bits level)) fuel
        (⟨turboInput seed dst ([UInt8.ofNat j] ++ nonce), r.2⟩ : TurboShakeState) 3 >>= fun z => .ok z.1) = _
      rw [turbo_sampS, hst]
      show _ = (sampS (Fk (levelKind bits level)) (Spec.turboStream prims seed (tag 6 2 ctx) (UInt8.ofNat j :: nonce)) fuel r.2 3
        >>= fun v => .ok v.1)
      cases sampS (Fk (levelKind bits level)) (Spec.turboStream prims seed (tag 6 2 ctx) (UInt8.ofNat j :: nonce)) fuel r.2 3 <;> rfl
  · rw [if_neg (by rw [hbits]; exact hl), if_neg (by omega), if_neg (by omega)]
    obtain ⟨dst, hd, hdl⟩ := Poplar1.dst_ok (show USAGE_CORR_LEAF < 2 ^ 16 by decide) hc
    rw [hd, hb]
    simp only [Except.ok_bind']
    rw [turbo_init, if_pos hdl, if_pos (by omega), sampS_zero]
    simp only [Except.ok_bind']
    have hc : (do
        let x ← (.ok (⟨turboInput seed dst ([UInt8.ofNat j] ++ nonce), 0⟩ : TurboShakeState) : Res (XofTurboShake128 prims fuel).State)
        let (v, _) ← (XofTurboShake128 prims fuel).nextVec (Fk (levelKind bits level)) fuel x 3
        return v : Res (List (Fk (levelKind bits level)))) = (do
        let z ← (XofTurboShake128 prims fuel).nextVec (Fk (levelKind bits level)) fuel
          (⟨turboInput seed dst ([UInt8.ofNat j] ++ nonce), 0⟩ : TurboShakeState) 3
        return z.1) := rfl
    refine hc.trans ?_
    rw [turbo_sampS]
    have hst : prims.turboShake (turboInput seed dst ([UInt8.ofNat j] ++ nonce)) 1 =
        Spec.turboStream prims seed (tag 6 3 ctx) (UInt8.ofNat j :: nonce) := by
      rw [Poplar1.dst_eq hd]
      rfl
    rw [hst]
    cases sampS (Fk (levelKind bits level)) (Spec.turboStream prims seed (tag 6 3 ctx) (UInt8.ofNat j :: nonce)) fuel 0 3 <;> rfl

/-- The oracles agree except at the input for the correlated randomness. -/
def OffCorr (bits : ℕ) (rand ctx nonce : Bytes) (level : ℕ) (T T' : Bytes → ℕ → UInt8) : Prop :=
  ∀ m, m ≠ firstCorrInput bits rand ctx nonce level → T' m = T m

section
variable {T T' : Bytes → ℕ → UInt8} {rand ctx ctx' nonce nonce' : Bytes} {level : ℕ}
  (H : OffCorr bits rand ctx' nonce' level T T') (hr : rand.length = 128) (hc : Idpf.CtxOk ctx) (hc' : Idpf.CtxOk ctx')
include H

theorem idpf_same (ℓ u : ℕ) (x c n : Bytes) : Spec.idpfStream (withOracle prims T') bits ℓ u x c n =
    Spec.idpfStream (withOracle prims T) bits ℓ u x c n := by
  unfold Spec.idpfStream
  split
  · rfl
  · show T' (turboInput x (Spec.idpfTag u c) n) = T (turboInput x (Spec.idpfTag u c) n)
    refine H _ fun he => ?_
    have := congrArg (fun l : Bytes => l[3]?) he
    simp [turboInput, firstCorrInput, Spec.xofInput, Spec.idpfTag, tag, natToLe] at this

theorem src_same (c n : Bytes) : srcOf (withOracle prims T') bits c n = srcOf (withOracle prims T) bits c n := by
  funext ℓ u x
  exact idpf_same H ℓ u x c n

include hr hc' in
theorem stream_same {u : ℕ} (hu : u < 2 ^ 16) {s b c : Bytes} (hs : s.length ≤ 32) (hcc : Idpf.CtxOk c)
    (hne : u ≠ corrUse bits level ∨ c ≠ ctx' ∨ b ≠ 0 :: nonce') :
    Spec.turboStream (withOracle prims T') s (tag 6 u c) b = Spec.turboStream (withOracle prims T) s (tag 6 u c) b := by
  show T' (turboInput s (tag 6 u c) b) = T (turboInput s (tag 6 u c) b)
  refine H _ fun he => ?_
  unfold Idpf.CtxOk at hc' hcc
  have hl : (slice rand 32 64).length = 32 := by rw [slice_length _ _ _ (by omega)]
  obtain ⟨-, h2, h3⟩ := turboInput_inj (by rw [Prio3.tag_length]; omega) (by rw [Prio3.tag_length]; omega) (by omega) (by omega) he
  obtain ⟨h4, h5⟩ := Prio3.tag_inj (by norm_num) hu (by rcases corrUse_cases bits level with h | h <;> (unfold corrUse at h; omega)) h2
  rcases hne with h | h | h
  · exact h h4
  · exact h h5
  · exact h h3

include hr hc hc' in
/-- The report is the same. -/
theorem shard_same (hf : fuel < 2 ^ 120) (hb : 0 < bits) {alpha : List Bool} (ha : alpha.length = bits)
    (hn : nonce.length = 16) (hne : (ctx, nonce) ≠ (ctx', nonce')) :
    (⟨poplarIdpf bits⟩ : Poplar1).shard (withOracle prims T') fuel ctx alpha nonce rand =
      (⟨poplarIdpf bits⟩ : Poplar1).shard (withOracle prims T) fuel ctx alpha nonce rand := by
  have hs : ∀ j, (seedOf rand j).length ≤ 32 := fun j => by
    unfold seedOf slice
    simp only [List.length_drop, List.length_take]
    omega
  have hcb : ∀ j, ctx ≠ ctx' ∨ UInt8.ofNat j :: nonce ≠ 0 :: nonce' := by
    intro j
    by_cases h : ctx = ctx'
    · right
      intro h'
      exact hne (by rw [h, (List.cons.inj h').2])
    · exact .inl h
  have key := fun T => shard_eq (prims := withOracle prims T) (ctx := ctx) (nonce := nonce) hf hb hc ha hn hr
    (T := ⟨0, bitOf alpha, srcOf (withOracle prims T) bits ctx nonce, srcOf (withOracle prims T) bits ctx nonce,
      keyOf rand 0, keyOf rand 1⟩) (.inl rfl) rfl rfl rfl rfl
  rw [key T', key T, src_same H]
  have e1 : Spec.shardStream (withOracle prims T') (ssOf rand) ctx nonce = Spec.shardStream (withOracle prims T) (ssOf rand) ctx nonce :=
    stream_same H hr hc' (by norm_num) (by simp [ssOf, slice]) hc
      (.inl (by rcases corrUse_cases bits level with h | h <;> omega))
  have e2 : (fun j => Spec.corrInnerStream (withOracle prims T') (seedOf rand j) ctx nonce j) =
      fun j => Spec.corrInnerStream (withOracle prims T) (seedOf rand j) ctx nonce j := by
    funext j
    exact stream_same H hr hc' (by norm_num) (hs j) hc (.inr (hcb j))
  have e3 : (fun j => Spec.corrLeafStream (withOracle prims T') (seedOf rand j) ctx nonce j) =
      fun j => Spec.corrLeafStream (withOracle prims T) (seedOf rand j) ctx nonce j := by
    funext j
    exact stream_same H hr hc' (by norm_num) (hs j) hc (.inr (hcb j))
  rw [e1, e2, e3]

include hc' in
theorem eval_same (hf : fuel < 2 ^ 120) {pub : List CorrectionWord} (hpub : (poplarIdpf bits).Shaped pub)
    {key : Bytes} (hk : key.length = 16) (j : ℕ) (prefixes : List (List Bool)) :
    (poplarIdpf bits).eval (withOracle prims T') fuel j pub key level prefixes ctx' nonce' =
      (poplarIdpf bits).eval (withOracle prims T) fuel j pub key level prefixes ctx' nonce' := by
  unfold Idpf.eval
  by_cases h1 : ¬ (0 ≤ (j : ℤ) ∧ (j : ℤ) < Idpf.SHARES)
  · rw [raiseIf_of h1]
    rfl
  rw [raiseIf_of_not h1]
  by_cases h2 : ¬ (0 ≤ (level : ℤ) ∧ (level : ℤ) < (poplarIdpf bits).bits)
  · rw [raiseIf_of h2]
    rfl
  have hl : level < bits := by
    push Not at h2
    exact_mod_cast h2.2
  rw [raiseIf_of_not h2]
  simp only [Except.ok_bind']
  congr 1
  funext _
  refine mapRes_congr fun p _ => ?_
  by_cases hp : p.length = level + 1
  · have e1 := evalPrefix_evalS (prims := withOracle prims T') (nonce := nonce') hf hc' hpub hk j hl hp
    have e2 := evalPrefix_evalS (prims := withOracle prims T) (nonce := nonce') hf hc' hpub hk j hl hp
    rw [src_same H] at e1
    exact e1.trans e2.symm
  · unfold Idpf.evalPrefix
    have : p.length ≠ (level : ℤ).toNat + 1 := by simpa using hp
    rw [raiseIf_of this]
    rfl

include hr hc' in
theorem corr_same {s : Bytes} (hs : s.length = 32) {j : ℕ} (hj : j < 2) (h1 : j = 1) :
    (⟨poplarIdpf bits⟩ : Poplar1).corrShares (withOracle prims T') fuel ctx' j level nonce' s =
      (⟨poplarIdpf bits⟩ : Poplar1).corrShares (withOracle prims T) fuel ctx' j level nonce' s := by
  rw [corrShares_sampS hc' hs hj, corrShares_sampS hc' hs hj,
    stream_same H hr hc' (by rcases corrUse_cases bits level with h | h <;> omega) (by omega) hc' (.inr (.inr (by subst h1; simp)))]

include hr hc' in
theorem rand_same {vk : Bytes} (hvk : vk.length = 32) {n : ℕ} {r : List (Fk (levelKind bits level))}
    (h : (⟨poplarIdpf bits⟩ : Poplar1).verifyRand (withOracle prims T') fuel vk ctx' nonce' level n = .ok r) :
    (⟨poplarIdpf bits⟩ : Poplar1).verifyRand (withOracle prims T) fuel vk ctx' nonce' level n = .ok r := by
  have e := stream_same (prims := prims) (s := vk) (b := nonce' ++ [UInt8.ofNat (level / 2 ^ 8), UInt8.ofNat level]) H hr hc'
    (show 4 < 2 ^ 16 by norm_num) (by omega) hc' (.inl (by rcases corrUse_cases bits level with h | h <;> omega))
  have h1 := (Poplar1.verifyRand_ev (P := ⟨poplarIdpf bits⟩) hc' hvk).1 h
  refine (Poplar1.verifyRand_ev (P := ⟨poplarIdpf bits⟩) hc' hvk).2 ⟨h1.1, ?_⟩
  have e' : (withOracle prims T').turboShake (Spec.verifyRandInput vk ctx' nonce' level) 1 =
      (withOracle prims T).turboShake (Spec.verifyRandInput vk ctx' nonce' level) 1 := e
  rw [← e']
  exact h1.2

end

theorem broadcast_two {vk ctx nonce : Bytes} {a : Poplar1AggParam} {pub : List CorrectionWord} {s0 s1 : Poplar1InputShare}
    {o : List FieldVec} (h : broadcast ((⟨poplarIdpf bits⟩ : Poplar1).vdaf prims fuel) vk a ctx nonce pub [s0, s1] = .ok o) :
    ∃ o0 o1, o = [o0, o1] := by
  unfold Spec.broadcast at h
  obtain ⟨x, -, h⟩ := Except.bind_eq_ok.1 h
  obtain ⟨⟨y, z⟩, -, h⟩ := Except.bind_eq_ok.1 h
  obtain ⟨w, -, h⟩ := Except.bind_eq_ok.1 h
  have := mapRes_length h
  have hl : o.length = 2 := by rw [this]; rfl
  match o, hl with
  | [o0, o1], _ => exact ⟨o0, o1, rfl⟩

/-- The values of the correlated randomness of the first Aggregator with which verification succeeds -/
def Pass {κ : Kind} (n pre : ℕ) (d h r : ℕ → Fk κ) (a b c A B : Fk κ) (f : Fin (pre + 3) → Fk κ) : Prop :=
  Poplar1.sigma n d h r (f ⟨pre, by omega⟩ + a) (f ⟨pre + 1, by omega⟩ + b) (f ⟨pre + 2, by omega⟩ + c) A B = 0

theorem pass_ncard {κ : Kind} (n pre : ℕ) (d h r : ℕ → Fk κ) (a b c A B : Fk κ) :
    Set.ncard {f | Pass n pre d h r a b c A B f} ≤ 1 * Fintype.card (Fk κ) ^ (pre + 3 - 1) := by
  refine ncard_le_of_fibre _ ⟨pre + 2, by omega⟩ 1 fun f => ?_
  refine ⟨{Poplar1.sigma n d h r (f ⟨pre, by omega⟩ + a) (f ⟨pre + 1, by omega⟩ + b) c A B}, by simp, fun x hx => ?_⟩
  unfold Pass at hx
  rw [Function.update_self, Function.update_of_ne (by simp), Function.update_of_ne (by simp)] at hx
  rw [Finset.mem_singleton]
  unfold Poplar1.sigma at hx ⊢
  linear_combination -hx

theorem modulus_level (bits level : ℕ) : Spec.levelModulus bits level = PyField.modulus (Fk (levelKind bits level)) := by
  unfold Spec.levelModulus levelKind Idpf.currentField
  show (if level + 1 < bits then PyField.modulus Field64 else PyField.modulus Field255) = PyField.modulus (Fk (if level < bits - 1 then Kind.inner else Kind.leaf))
  by_cases h : level + 1 < bits
  · rw [if_pos h, if_pos (by omega)]; rfl
  · rw [if_neg h, if_neg (by omega)]; rfl

/-- A report for another application context or another nonce is rejected. -/
theorem cross_bound (hf : fuel < 2 ^ 120) (hb : 0 < bits) {ctx ctx' vk nonce nonce' rand : Bytes} (hc : Idpf.CtxOk ctx)
    (hc' : Idpf.CtxOk ctx') (hne : (ctx, nonce) ≠ (ctx', nonce')) {alpha : List Bool} (ha : alpha.length = bits)
    (hn : nonce.length = 16) (hr : rand.length = 128) (hvk : vk.length = 32) {level : ℕ} {prefixes : List (List Bool)}
    {S : Set Bytes} [Finite S] (hS : firstCorrInput bits rand ctx' nonce' level ∈ S)
    {N : ℕ} (hN : 2 * fuel * PyField.encSize (Fk (levelKind bits level)) ≤ N) :
    Spec.crossProbability (fun O => (⟨poplarIdpf bits⟩ : Poplar1).vdaf (withOracle prims O) fuel) prims vk (level, prefixes) alpha
      rand ctx nonce ctx' nonce' S N ≤ 1 / Spec.levelModulus bits level := by
  classical
  have : Fintype S := Fintype.ofFinite S
  set κ := levelKind bits level with hκ
  have hp : (0 : ℚ) < PyField.modulus (Fk κ) := by
    rw [← card_eq]
    exact_mod_cast Fintype.card_pos
  have hall : Set.ncard (Spec.oracles prims S N) = Fintype.card (S → Fin N → UInt8) := by
    have := ncard_glue prims S (N := N) fun _ => True
    simpa [Set.ncard_univ] using this
  unfold Spec.crossProbability
  rw [hall, ncard_glue prims S fun O => ∃ outs, crossOutShares ((⟨poplarIdpf bits⟩ : Poplar1).vdaf (withOracle prims O) fuel)
    vk (level, prefixes) alpha rand ctx nonce ctx' nonce' = .ok outs]
  rw [div_le_iff₀ (by exact_mod_cast Fintype.card_pos), modulus_level]
  set m0 : S := ⟨firstCorrInput bits rand ctx' nonce' level, hS⟩ with hm0
  set E : Set (S → Fin N → UInt8) := {f | ∃ outs, crossOutShares ((⟨poplarIdpf bits⟩ : Poplar1).vdaf
    (withOracle prims (glue prims S f)) fuel) vk (level, prefixes) alpha rand ctx nonce ctx' nonce' = .ok outs} with hE
  refine deferred_one (fun _ i => i = m0) (fun _ _ _ h h' => h.trans h'.symm) (fun _ _ _ h => h) _ (fun _ _ => ⟨m0, rfl⟩)
    (by positivity) ?_
  rintro O _ rfl
  rcases Set.eq_empty_or_nonempty {y | Function.update O m0 y ∈ E} with hem | ⟨y0, hy0⟩
  · rw [hem]
    simp only [Set.ncard_empty, Nat.cast_zero]
    positivity
  have split : ∀ y, Function.update O m0 y ∈ E → ∃ s : Sh, (poplarIdpf bits).Shaped s.pub ∧
      (⟨poplarIdpf bits⟩ : Poplar1).shard (withOracle prims (glue prims S (Function.update O m0 y))) fuel ctx alpha nonce rand =
        .ok (s.pub, [s.share (keyOf rand 0) (seedOf rand 0) 0, s.share (keyOf rand 1) (seedOf rand 1) 1]) ∧
      ∃ o : FieldVec × FieldVec, Spec.poplar1Verify ⟨poplarIdpf bits⟩ (withOracle prims (glue prims S (Function.update O m0 y))) fuel vk
        ctx' (level, prefixes) nonce' s.pub (s.share (keyOf rand 0) (seedOf rand 0) 0) (s.share (keyOf rand 1) (seedOf rand 1) 1) =
          .ok o := by
    rintro y ⟨o, h⟩
    unfold Spec.crossOutShares at h
    obtain ⟨⟨pub, l⟩, h1, h2⟩ := Except.bind_eq_ok.1 h
    have h1 : (⟨poplarIdpf bits⟩ : Poplar1).shard (withOracle prims (glue prims S (Function.update O m0 y))) fuel ctx alpha nonce rand =
      .ok (pub, l) := h1
    have h3 := h1
    rw [shard_eq hf hb hc ha hn hr (T := ⟨0, bitOf alpha, srcOf (withOracle prims (glue prims S (Function.update O m0 y))) bits ctx nonce,
      srcOf (withOracle prims (glue prims S (Function.update O m0 y))) bits ctx nonce, keyOf rand 0, keyOf rand 1⟩)
      (.inl rfl) rfl rfl rfl rfl] at h3
    obtain ⟨s, h4, h5⟩ := Except.bind_eq_ok.1 h3
    cases h5
    obtain ⟨p1, p2, p3, hD⟩ := shardS_drawn.1 h4
    obtain ⟨o0, o1, rfl⟩ := broadcast_two h2
    exact ⟨s, Tree.pub_shaped (fun ℓ _ => rfl) hD.pub, h1, (o0, o1), WireGame.poplar_broadcast.1 h2⟩
  have off : ∀ y y', OffCorr bits rand ctx' nonce' level (glue prims S (Function.update O m0 y))
      (glue prims S (Function.update O m0 y')) := by
    intro y y' m hm
    rw [glue_upd O m0 y' hm, glue_upd O m0 y hm]
  obtain ⟨s, hpub, hsh0, o, ho⟩ := split y0 hy0
  obtain ⟨v0, v1, corr0, corr1, A0, B0, A1, B1, r, hF, hR, -, -, -⟩ := Poplar1.succeeds_iff (Poplar1.verify_succeeds ho)
  have hs : ∀ j < 2, (seedOf rand j).length = 32 := fun j hj => seedOf_length hr hj
  have hk : ∀ j < 2, (keyOf rand j).length = 16 := fun j hj => keyOf_length hr hj
  have h7 := ncard_streams (F := Fk κ) (fuel := 2 * fuel) hN (prims.turboShake m0 1) (P := 1) (k := corrPre bits level + 3)
    {q | Pass r.length (corrPre bits level) (fun i => Poplar1.tot v0 v1 i 0) (fun i => Poplar1.tot v0 v1 i 1) (fun i => coef r i)
      corr1.1 corr1.2.1 corr1.2.2 (A0 + A1) (B0 + B1) (q 0)} {y | Function.update O m0 y ∈ E} (by
    intro y hy
    obtain ⟨s', -, hsh', o', ho'⟩ := split y hy
    have A := off y0 y
    rw [shard_same A hr hc hc' hf hb ha hn hne, hsh0] at hsh'
    simp only [Except.ok.injEq, Prod.mk.injEq, List.cons.injEq, and_true] at hsh'
    obtain ⟨e1, e2, e3⟩ := hsh'
    rw [← e1, ← e2, ← e3] at ho'
    obtain ⟨v0', v1', corr0', corr1', A0', B0', A1', B1', r', hF', hR', -, -, hσ⟩ :=
      Poplar1.succeeds_iff (Poplar1.verify_succeeds ho')
    have f1 := Except.ok.inj (hF.eval0.symm.trans
      ((eval_same A hc' hf hpub (hk 0 (by norm_num)) 0 prefixes).symm.trans hF'.eval0))
    have f2 := Except.ok.inj (hF.eval1.symm.trans
      ((eval_same A hc' hf hpub (hk 1 (by norm_num)) 1 prefixes).symm.trans hF'.eval1))
    have f3 := hF'.corr1
    rw [show (s.share (keyOf rand 1) (seedOf rand 1) 1).corrSeed = seedOf rand 1 from rfl,
      corr_same A hr hc' (hs 1 (by norm_num)) (by norm_num) rfl] at f3
    have f3 := Except.ok.inj (hF.corr1.symm.trans f3)
    have f4 := hF.ab0.symm.trans hF'.ab0
    have f5 := hF.ab1.symm.trans hF'.ab1
    have f6 := Except.ok.inj (hR.symm.trans (rand_same A hr hc' hvk hR'))
    simp only [List.cons.injEq, and_true] at f3 f4 f5
    obtain ⟨g1, g2, g3⟩ := f3
    obtain ⟨g4, g5⟩ := f4
    obtain ⟨g6, g7⟩ := f5
    rw [← f1, ← f2, ← g1, ← g2, ← g3, ← g4, ← g5, ← g6, ← g7, ← f6] at hσ
    have f7 := hF'.corr0
    rw [show (s.share (keyOf rand 0) (seedOf rand 0) 0).corrSeed = seedOf rand 0 from rfl,
      corrShares_sampS hc' (hs 0 (by norm_num)) (by norm_num)] at f7
    obtain ⟨⟨w, p⟩, k1, f7⟩ := Except.bind_eq_ok.1 f7
    obtain ⟨⟨w', p'⟩, k2, f7⟩ := Except.bind_eq_ok.1 f7
    have f7 : w' = [corr0'.1, corr0'.2.1, corr0'.2.2] := Except.ok.inj f7
    have hev := sampS_twice k1 k2
    have hg := glue_mem prims S (Function.update O m0 y) m0
    rw [Function.update_self] at hg
    have hstr : Spec.turboStream (withOracle prims (glue prims S (Function.update O m0 y))) (seedOf rand 0)
        (tag 6 (corrUse bits level) ctx') (UInt8.ofNat 0 :: nonce') = withHead (prims.turboShake m0 1) y := hg
    rw [hstr] at hev
    have hw : w.length = corrPre bits level := (sampS_ok k1).1
    obtain ⟨q, hq1, hq2⟩ := flat_surj (P := 1) (k := corrPre bits level + 3) (l := w ++ w') (by rw [hev.1, mul_one])
    refine ⟨q, ?_, by rw [← hq1, mul_one]; exact hev⟩
    have hq : List.ofFn (q 0) = w ++ w' := by
      rw [hq2 0]
      have : (w ++ w').length = corrPre bits level + 3 := hev.1
      unfold blk
      simp [← this]
    have hget : ∀ t (ht : t < 3), q 0 ⟨corrPre bits level + t, by omega⟩ = (w'[t]?).getD 0 := by
      intro t ht
      have := congrArg (fun l : List (Fk κ) => (l[corrPre bits level + t]?).getD 0) hq
      rw [List.getElem?_append_right (by omega), hw, Nat.add_sub_cancel_left, List.getElem?_ofFn, dif_pos (by omega)] at this
      exact this
    show Pass _ _ _ _ _ _ _ _ _ _ _
    unfold Pass
    have q0 := hget 0 (by norm_num)
    have q1 := hget 1 (by norm_num)
    have q2 := hget 2 (by norm_num)
    rw [f7] at q0 q1 q2
    simp only [Nat.add_zero] at q0
    rw [q0, q1, q2]
    exact hσ)
  have h8 : Set.ncard {q : Fin 1 → Fin (corrPre bits level + 3) → Fk κ | Pass r.length (corrPre bits level)
      (fun i => Poplar1.tot v0 v1 i 0) (fun i => Poplar1.tot v0 v1 i 1) (fun i => coef r i)
      corr1.1 corr1.2.1 corr1.2.2 (A0 + A1) (B0 + B1) (q 0)} ≤ Fintype.card (Fk κ) ^ (corrPre bits level + 2) := by
    refine le_trans (Set.ncard_le_ncard_of_injOn (fun q => q 0) (t := {f | Pass r.length (corrPre bits level)
      (fun i => Poplar1.tot v0 v1 i 0) (fun i => Poplar1.tot v0 v1 i 1) (fun i => coef r i)
      corr1.1 corr1.2.1 corr1.2.2 (A0 + A1) (B0 + B1) f}) (fun q hq => hq) ?_ (Set.toFinite _)) ?_
    · intro q _ q' _ hqq
      funext i
      rw [Fin.fin_one_eq_zero i]
      exact hqq
    · have := pass_ncard (κ := κ) r.length (corrPre bits level) (fun i => Poplar1.tot v0 v1 i 0) (fun i => Poplar1.tot v0 v1 i 1)
        (fun i => coef r i) corr1.1 corr1.2.1 corr1.2.2 (A0 + A1) (B0 + B1)
      rw [one_mul] at this
      exact this
  have hQ : (0 : ℚ) < Fintype.card (Fin 1 → Fin (corrPre bits level + 3) → Fk κ) := by exact_mod_cast Fintype.card_pos
  have h8' : (Set.ncard {q : Fin 1 → Fin (corrPre bits level + 3) → Fk κ | Pass r.length (corrPre bits level)
      (fun i => Poplar1.tot v0 v1 i 0) (fun i => Poplar1.tot v0 v1 i 1) (fun i => coef r i)
      corr1.1 corr1.2.1 corr1.2.2 (A0 + A1) (B0 + B1) (q 0)} : ℚ) ≤ (Fintype.card (Fk κ) : ℚ) ^ (corrPre bits level + 2) := by
    exact_mod_cast h8
  refine le_of_mul_le_mul_right (h7.trans ((mul_le_mul_of_nonneg_right h8' (Nat.cast_nonneg _)).trans (le_of_eq ?_))) hQ
  have hcard : (Fintype.card (Fin 1 → Fin (corrPre bits level + 3) → Fk κ) : ℚ) =
      (PyField.modulus (Fk κ) : ℚ) ^ (corrPre bits level + 2) * PyField.modulus (Fk κ) := by
    rw [← pow_succ, ← card_eq (Fk κ)]
    simp
  rw [hcard, card_eq (Fk κ)]
  have key : ∀ p c : ℚ, 0 < p → p ^ (corrPre bits level + 2) * c = 1 / p * c * (p ^ (corrPre bits level + 2) * p) := by
    intro p c h
    have := h.ne'
    field_simp
  exact key _ _ hp

end PO
end Vdaf
