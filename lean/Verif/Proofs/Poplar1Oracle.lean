import Verif.Proofs.Poplar1Sound
import Verif.Proofs.RobustGame
import Verif.Spec.Poplar1Game

/-! What verification of a Poplar1 report depends on. -/

set_option linter.unusedSectionVars false

namespace Vdaf
open Spec (tag withOracle)

section
variable {F : Type} [PyField F] {prims : Prims} {fuel : ℕ} {T T' : Bytes → ℕ → UInt8}

theorem nextVecLoop_state {prims : Prims} {m : Bytes} {k n g pos : ℕ} {vec v : List F}
    {st : (XofTurboShake128 prims fuel).State}
    (h : (XofTurboShake128 prims fuel).nextVecLoop F k n g (⟨m, pos⟩ : TurboShakeState) vec = .ok (v, st)) :
    (show TurboShakeState from st).m = m := by
  induction g generalizing pos vec with
  | zero =>
    change (if vec.length < n then _ else _) = _ at h
    split at h
    · cases h
    · obtain ⟨-, rfl⟩ := Prod.mk.inj (Except.ok.inj h)
      rfl
  | succ g ih =>
    rw [nextVecLoop_succ] at h
    split at h
    · split at h
      · obtain ⟨fx, -, h⟩ := Except.bind_eq_ok.1 h
        exact ih h
      · exact ih h
    · obtain ⟨-, rfl⟩ := Prod.mk.inj (Except.ok.inj h)
      rfl

theorem nextVec_congr {m : Bytes} (h : T' m = T m) (f n pos : ℕ) :
    (XofTurboShake128 (withOracle prims T') fuel).nextVec F f (⟨m, pos⟩ : TurboShakeState) n =
      (XofTurboShake128 (withOracle prims T) fuel).nextVec F f (⟨m, pos⟩ : TurboShakeState) n := by
  unfold Xof.nextVec
  congr 1
  funext k
  exact nextVecLoop_congr h _ _ _ _ _

theorem nextVec_state {prims : Prims} {m : Bytes} {f n pos : ℕ} {v : List F} {st : (XofTurboShake128 prims fuel).State}
    (h : (XofTurboShake128 prims fuel).nextVec F f (⟨m, pos⟩ : TurboShakeState) n = .ok (v, st)) :
    (show TurboShakeState from st).m = m := by
  unfold Xof.nextVec at h
  obtain ⟨k, -, h⟩ := Except.bind_eq_ok.1 h
  exact nextVecLoop_state h

theorem aes_congr : XofFixedKeyAes128 (withOracle prims T') fuel = XofFixedKeyAes128 (withOracle prims T) fuel := rfl

end

/-- The oracles agree at all the inputs that are not for the verification randomness. -/
def SameElsewhere (ctx : Bytes) (T T' : Bytes → ℕ → UInt8) : Prop :=
  ∀ s d b, s.length < 2 ^ 8 → d.length < 2 ^ 16 → d ≠ tag 6 4 ctx → T' (turboInput s d b) = T (turboInput s d b)

section
variable {prims : Prims} {fuel : ℕ} {T T' : Bytes → ℕ → UInt8} {ctx : Bytes} (H : SameElsewhere ctx T T')
include H

theorem idpf_tag_ne {u : ℕ} {dst : Bytes} (h : formatDst 1 0 u = .ok dst) : dst ++ ctx ≠ tag 6 4 ctx := by
  intro he
  have a := (Prio3.tag_ok_iff (ctx := ctx)).2 ⟨show (6 : ℕ) < 2 ^ 32 by norm_num, show (4 : ℕ) < 2 ^ 16 by norm_num, rfl⟩
  unfold domainSeparationTag at a
  obtain ⟨t, e1, e2⟩ := Except.bind_eq_ok.1 a
  have := (formatDst_inj h e1 (he.trans (Except.ok.inj e2).symm)).1
  cases this

omit H in
theorem vdaf_tag_ne {u : ℕ} (hu : u ≠ 4) {dst : Bytes} (h : domainSeparationTag 6 u ctx = .ok dst) : dst ≠ tag 6 4 ctx := by
  intro he
  have a := (Prio3.tag_ok_iff (ctx := ctx)).2 ⟨show (6 : ℕ) < 2 ^ 32 by norm_num, show (4 : ℕ) < 2 ^ 16 by norm_num, rfl⟩
  unfold domainSeparationTag at a h
  obtain ⟨t, e1, e2⟩ := Except.bind_eq_ok.1 a
  obtain ⟨t', e1', e2'⟩ := Except.bind_eq_ok.1 h
  exact hu (formatDst_inj e1' e1 ((Except.ok.inj e2').trans (he.trans (Except.ok.inj e2).symm))).2.2.1

omit H in
/-- `extend` with a given XOF -/
theorem extend_eq (I : Idpf) (prims : Prims) (fuel level : ℕ) (seed nonce : Bytes) (X : Xof)
    (hX : I.currentXof prims fuel level = X) : I.extend prims fuel level seed ctx nonce = (do
      let dst ← formatDst 1 0 0
      let xof ← X.init seed (dst ++ ctx) nonce
      let (s0, xof) ← X.next xof Idpf.KEY_SIZE
      let (s1, _) ← X.next xof Idpf.KEY_SIZE
      let (s0, t0) ← Idpf.ctrlBit s0
      let (s1, t1) ← Idpf.ctrlBit s1
      return ((s0, s1), (t0, t1))) := by
  subst hX
  rfl

omit H in
/-- `convert` with a given XOF -/
theorem convert_eq (I : Idpf) (prims : Prims) (fuel level : ℕ) (seed nonce : Bytes) (X : Xof)
    (hX : I.currentXof prims fuel level = X) : I.convert prims fuel level seed ctx nonce = (do
      let dst ← formatDst 1 0 1
      let xof ← X.init seed (dst ++ ctx) nonce
      let (nextSeed, xof) ← X.next xof Idpf.KEY_SIZE
      let (w, _) ← X.nextVec (Fk (I.currentField level)) X.fuel xof I.valueLen
      return (nextSeed, w)) := by
  subst hX
  rfl

theorem extend_congr (I : Idpf) (level : ℕ) (seed nonce : Bytes) :
    I.extend (withOracle prims T') fuel level seed ctx nonce = I.extend (withOracle prims T) fuel level seed ctx nonce := by
  by_cases hl : level < I.bits - 1
  · rw [extend_eq I _ _ _ _ _ _ (if_pos hl), extend_eq I _ _ _ _ _ _ (if_pos hl)]
    rfl
  · rw [extend_eq I _ _ _ _ _ _ (if_neg hl), extend_eq I _ _ _ _ _ _ (if_neg hl)]
    cases hd : formatDst 1 0 0 with
    | error e => rfl
    | ok dst =>
      simp only [Except.ok_bind']
      rw [turbo_init, turbo_init]
      by_cases h1 : (dst ++ ctx).length < 2 ^ 16
      · rw [if_pos h1, if_pos h1]
        by_cases h2 : seed.length < 2 ^ 8
        · rw [if_pos h2, if_pos h2]
          simp only [Except.ok_bind', XofTurboShake128, withOracle, if_true, H _ _ nonce h2 h1 (idpf_tag_ne H hd)]
        · rw [if_neg h2, if_neg h2]; rfl
      · rw [if_neg h1, if_neg h1]; rfl

theorem convert_congr (I : Idpf) (level : ℕ) (seed nonce : Bytes) :
    I.convert (withOracle prims T') fuel level seed ctx nonce = I.convert (withOracle prims T) fuel level seed ctx nonce := by
  by_cases hl : level < I.bits - 1
  · rw [convert_eq I _ _ _ _ _ _ (if_pos hl), convert_eq I _ _ _ _ _ _ (if_pos hl)]
    rfl
  · rw [convert_eq I _ _ _ _ _ _ (if_neg hl), convert_eq I _ _ _ _ _ _ (if_neg hl)]
    cases hd : formatDst 1 0 1 with
    | error e => rfl
    | ok dst =>
      simp only [Except.ok_bind']
      rw [turbo_init, turbo_init]
      by_cases h1 : (dst ++ ctx).length < 2 ^ 16
      · rw [if_pos h1, if_pos h1]
        by_cases h2 : seed.length < 2 ^ 8
        · rw [if_pos h2, if_pos h2]
          have hm := H _ _ nonce h2 h1 (idpf_tag_ne H hd)
          have hv := nextVec_congr (F := Fk (I.currentField level)) (prims := prims) (fuel := fuel) hm fuel I.valueLen
            (0 + Idpf.KEY_SIZE)
          have hs : (withOracle prims T').turboShake (turboInput seed (dst ++ ctx) nonce) 1 =
            (withOracle prims T).turboShake (turboInput seed (dst ++ ctx) nonce) 1 := by simp [withOracle, hm]
          have hc : ∀ prims : Prims, (do
              let xof ← (.ok (⟨turboInput seed (dst ++ ctx) nonce, 0⟩ : TurboShakeState) : Res (XofTurboShake128 prims fuel).State)
              let (nextSeed, xof) ← (XofTurboShake128 prims fuel).next xof Idpf.KEY_SIZE
              let (w, _) ← (XofTurboShake128 prims fuel).nextVec (Fk (I.currentField level)) (XofTurboShake128 prims fuel).fuel
                xof I.valueLen
              return (nextSeed, w) : Res (Bytes × List (Fk (I.currentField level)))) = (do
              let (w, _) ← (XofTurboShake128 prims fuel).nextVec (Fk (I.currentField level)) fuel
                (⟨turboInput seed (dst ++ ctx) nonce, 0 + Idpf.KEY_SIZE⟩ : TurboShakeState) I.valueLen
              return ((List.range Idpf.KEY_SIZE).map fun i => prims.turboShake (turboInput seed (dst ++ ctx) nonce) 1 (0 + i),
                w)) := fun _ => rfl
          refine (hc _).trans (Eq.trans ?_ (hc _).symm)
          rw [hs, hv]
          rfl
        · rw [if_neg h2, if_neg h2]; rfl
      · rw [if_neg h1, if_neg h1]; rfl

theorem eval_congr (I : Idpf) (aggId : ℤ) (pub : List CorrectionWord) (key : Bytes) (level : ℤ) (prefixes : List (List Bool))
    (nonce : Bytes) : I.eval (withOracle prims T') fuel aggId pub key level prefixes ctx nonce =
      I.eval (withOracle prims T) fuel aggId pub key level prefixes ctx nonce := by
  have h1 : ∀ s c cw l bit, I.evalNext (withOracle prims T') fuel s c cw l bit ctx nonce =
      I.evalNext (withOracle prims T) fuel s c cw l bit ctx nonce := by
    intro s c cw l bit
    unfold Idpf.evalNext
    simp only [extend_congr H, convert_congr H]
  unfold Idpf.eval Idpf.evalPrefix Idpf.evalStep
  simp only [h1]


theorem corrShares_congr (P : Poplar1) (aggId level : ℕ) (nonce seed : Bytes) :
    P.corrShares (withOracle prims T') fuel ctx aggId level nonce seed =
      P.corrShares (withOracle prims T) fuel ctx aggId level nonce seed := by
  unfold Poplar1.corrShares Poplar1.corrXof Poplar1.xof
  by_cases hl : level < P.idpf.bits - 1
  · rw [if_pos hl, if_pos hl]
    cases hd : Poplar1.dst USAGE_CORR_INNER ctx with
    | error e => rfl
    | ok dst =>
      cases hb : byte aggId with
      | error e => rfl
      | ok b =>
        simp only [Except.ok_bind']
        rw [turbo_init, turbo_init]
        by_cases h1 : dst.length < 2 ^ 16
        · rw [if_pos h1, if_pos h1]
          by_cases h2 : seed.length < 2 ^ 8
          · rw [if_pos h2, if_pos h2]
            have hm := H _ _ (b ++ nonce) h2 h1 (vdaf_tag_ne (by decide) hd)
            have hc : ∀ (X : Xof) (st : X.State), (do
                let x ← (do
                  let x ← (.ok st : Res X.State)
                  let (_, x) ← X.nextVec (Fk (P.idpf.currentField level)) fuel x (3 * level)
                  return x)
                let (v, _) ← X.nextVec (Fk (P.idpf.currentField level)) fuel x 3
                return v : Res (List (Fk (P.idpf.currentField level)))) = (do
                let y ← X.nextVec (Fk (P.idpf.currentField level)) fuel st (3 * level)
                let z ← X.nextVec (Fk (P.idpf.currentField level)) fuel y.2 3
                return z.1) := by
              intro X st
              rw [Except.ok_bind', bind_assoc]
              cases X.nextVec (Fk (P.idpf.currentField level)) fuel st (3 * level) <;> rfl
            have hc := fun prims : Prims => hc (XofTurboShake128 prims fuel) (⟨turboInput seed dst (b ++ nonce), 0⟩ : TurboShakeState)
            refine (hc _).trans (Eq.trans ?_ (hc _).symm)
            have hv := nextVec_congr (F := Fk (P.idpf.currentField level)) (prims := prims) (fuel := fuel) hm fuel (3 * level) 0
            cases h3 : (XofTurboShake128 (withOracle prims T) fuel).nextVec (Fk (P.idpf.currentField level)) fuel
                (⟨turboInput seed dst (b ++ nonce), 0⟩ : TurboShakeState) (3 * level) with
            | error e =>
              erw [hv, h3]
              rfl
            | ok y =>
              obtain ⟨w, m, pos⟩ := y
              have hst : m = turboInput seed dst (b ++ nonce) := nextVec_state h3
              subst hst
              erw [hv, h3]
              show (Bind.bind (α := List (Fk (P.idpf.currentField level)) × TurboShakeState)
                ((XofTurboShake128 (withOracle prims T') fuel).nextVec (Fk (P.idpf.currentField level)) fuel
                  (⟨turboInput seed dst (b ++ nonce), pos⟩ : TurboShakeState) 3) fun z => Pure.pure z.1) = _
              rw [nextVec_congr hm]
              rfl
          · rw [if_neg h2, if_neg h2]; rfl
        · rw [if_neg h1, if_neg h1]; rfl
  · rw [if_neg hl, if_neg hl]
    cases hd : Poplar1.dst USAGE_CORR_LEAF ctx with
    | error e => rfl
    | ok dst =>
      cases hb : byte aggId with
      | error e => rfl
      | ok b =>
        simp only [Except.ok_bind']
        rw [turbo_init, turbo_init]
        by_cases h1 : dst.length < 2 ^ 16
        · rw [if_pos h1, if_pos h1]
          by_cases h2 : seed.length < 2 ^ 8
          · rw [if_pos h2, if_pos h2]
            have hm := H _ _ (b ++ nonce) h2 h1 (vdaf_tag_ne (by decide) hd)
            have hc : ∀ prims : Prims, (do
                let x ← (.ok (⟨turboInput seed dst (b ++ nonce), 0⟩ : TurboShakeState) : Res (XofTurboShake128 prims fuel).State)
                let (v, _) ← (XofTurboShake128 prims fuel).nextVec (Fk (P.idpf.currentField level)) fuel x 3
                return v : Res (List (Fk (P.idpf.currentField level)))) = (do
                let z ← (XofTurboShake128 prims fuel).nextVec (Fk (P.idpf.currentField level)) fuel
                  (⟨turboInput seed dst (b ++ nonce), 0⟩ : TurboShakeState) 3
                return z.1) := fun _ => rfl
            refine (hc _).trans (Eq.trans ?_ (hc _).symm)
            rw [nextVec_congr hm]
            rfl
          · rw [if_neg h2, if_neg h2]; rfl
        · rw [if_neg h1, if_neg h1]; rfl

end
end Vdaf
