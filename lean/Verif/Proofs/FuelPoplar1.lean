import Verif.Proofs.FuelPrio3
import Verif.Model.Poplar1

/-!
# Termination: IDPF and Poplar1
-/

namespace Vdaf

/-! ### Sampling from `XofFixedKeyAes128` always ends -/

theorem mem_ok_of_mapRes {α β : Type} {f : α → Res β} {l : List α} {r : List β} (h : mapRes f l = .ok r) {a : α}
    (ha : a ∈ l) : ∃ b, f a = .ok b := by
  rw [mapRes_ok_iff] at h
  induction h with
  | nil => cases ha
  | cons h1 _ ih =>
    rcases List.mem_cons.1 ha with rfl | ha
    · exact ⟨_, h1⟩
    · exact ih ha

theorem aes_readAll_ends (prims : Prims) (fuel l : ℕ) (hl : 0 < l) (k : ℕ)
    (st : FixedKeyAesState) (hk : 2 ^ 132 ≤ st.lengthConsumed + l * k) (h0 : 0 < k) :
    ∃ e, Spec.readAll (XofFixedKeyAes128 prims fuel) st (List.replicate k l) = .error e := by
  induction k generalizing st with
  | zero => omega
  | succ k ih =>
    rw [List.replicate_succ]
    cases hx : (XofFixedKeyAes128 prims fuel).next st l with
    | error e => exact ⟨e, by simp only [Spec.readAll, hx]⟩
    | ok r =>
      obtain ⟨b, st'⟩ := r
      have hst : st'.lengthConsumed = st.lengthConsumed + l ∧ (st.lengthConsumed + l) / 16 < 2 ^ 128 := by
        simp only [XofFixedKeyAes128] at hx
        rw [Except.bind_eq_ok] at hx
        obtain ⟨bs, hbs, hx⟩ := hx
        cases hx
        refine ⟨rfl, ?_⟩
        by_contra hlt
        have hmem : (st.lengthConsumed + l) / 16 ∈ List.range' (st.lengthConsumed / 16)
            ((st.lengthConsumed + l) / 16 + 1 - st.lengthConsumed / 16) := by
          rw [List.mem_range'_1]
          omega
        obtain ⟨y, hy⟩ := mem_ok_of_mapRes hbs hmem
        rw [Except.bind_eq_ok] at hy
        obtain ⟨z, hz, -⟩ := hy
        unfold toLeBytes at hz
        split at hz
        · cases hz
        · next h =>
            norm_num at h hlt
            omega
      rcases Nat.eq_zero_or_pos k with rfl | hk0
      · exfalso
        have := hst.2
        have h2 : (2 : ℕ) ^ 132 = 16 * 2 ^ 128 := by norm_num
        rw [h2] at hk
        simp only [Nat.zero_add, Nat.mul_one] at hk
        omega
      · obtain ⟨e, he⟩ := ih st' (by rw [hst.1]; rw [Nat.mul_add, Nat.mul_one] at hk; omega) hk0
        refine ⟨e, ?_⟩
        simp only [Spec.readAll, hx, he]

theorem aes_samplingEnds (prims : Prims) (fuel : ℕ) {F : Type} [PyField F] (hl : 0 < PyField.encSize F) :
    Spec.SamplingEnds (XofFixedKeyAes128 prims fuel) F := fun st =>
  ⟨2 ^ 132, .inl (aes_readAll_ends prims fuel _ hl _ st
    (le_trans (Nat.le_mul_of_pos_left _ hl) (Nat.le_add_left _ _)) (by norm_num))⟩

/-! ### IDPF -/

section
variable (I : Idpf) (prims : Prims)

theorem currentXof_withFuel (f level : ℕ) :
    I.currentXof prims f level = (I.currentXof prims 0 level).withFuel f := by
  unfold Idpf.currentXof
  split <;> rfl

theorem currentXof_nf (level : ℕ) : (I.currentXof prims 0 level).NoFuel := by
  unfold Idpf.currentXof
  split
  · exact aes_nf _ _
  · exact turbo_nf _ _

theorem currentXof_ends (hL : Spec.SamplingEnds (XofTurboShake128 prims 0) Field255) (level : ℕ) :
    Spec.SamplingEnds (I.currentXof prims 0 level) (Fk (I.currentField level)) := by
  unfold Idpf.currentXof Idpf.currentField
  by_cases h : level < I.bits - 1
  · rw [if_pos h, if_pos h]
    exact aes_samplingEnds prims 0 (F := Field64) (by decide)
  · rw [if_neg h, if_neg h]
    exact hL

/-- `extend` for an arbitrary XOF -/
def extendWith (X : Xof) (seed ctx nonce : Bytes) : Res ((Bytes × Bytes) × (Bool × Bool)) := do
  let dst ← formatDst 1 0 0
  let xof ← X.init seed (dst ++ ctx) nonce
  let (s0, xof) ← X.next xof Idpf.KEY_SIZE
  let (s1, _) ← X.next xof Idpf.KEY_SIZE
  let (s0, t0) ← Idpf.ctrlBit s0
  let (s1, t1) ← Idpf.ctrlBit s1
  return ((s0, s1), (t0, t1))

/-- `convert` for an arbitrary XOF -/
def convertWith (X : Xof) (F : Type) [PyField F] (n : ℕ) (seed ctx nonce : Bytes) : Res (Bytes × List F) := do
  let dst ← formatDst 1 0 1
  let xof ← X.init seed (dst ++ ctx) nonce
  let (nextSeed, xof) ← X.next xof Idpf.KEY_SIZE
  let (w, _) ← X.nextVec F X.fuel xof n
  return (nextSeed, w)

theorem NF.ctrlBit (s : Bytes) : NF (Idpf.ctrlBit s) := by unfold Idpf.ctrlBit; nf

theorem term_extend (level : ℕ) (seed ctx nonce : Bytes) :
    Term fun f => I.extend prims f level seed ctx nonce := by
  have : (fun f => I.extend prims f level seed ctx nonce) = fun _ =>
      extendWith (I.currentXof prims 0 level) seed ctx nonce := by
    funext f
    show extendWith (I.currentXof prims f level) seed ctx nonce = _
    rw [currentXof_withFuel]
    rfl
  rw [this]
  refine Term.const ?_
  have hX := currentXof_nf I prims level
  generalize I.currentXof prims 0 level = X at hX
  unfold extendWith
  refine NF.bind' (by nf) fun d => NF.bind' (hX.init _ _ _) fun st => NF.bind' (hX.next _ _) fun a => ?_
  refine NF.bind' (hX.next _ _) fun b => NF.bind' (NF.ctrlBit _) fun a => NF.bind' (NF.ctrlBit _) fun b => ?_
  nf

theorem term_convertWith {X : Xof} {F : Type} [PyField F] (hX : X.NoFuel) (hF : Spec.SamplingEnds X F) (n : ℕ)
    (seed ctx nonce : Bytes) : Term fun f => convertWith (X.withFuel f) F n seed ctx nonce := by
  have : (fun f => convertWith (X.withFuel f) F n seed ctx nonce) = fun f => formatDst 1 0 1 >>= fun d =>
      X.init seed (d ++ ctx) nonce >>= fun st => X.next st Idpf.KEY_SIZE >>= fun r =>
      X.nextVec F f r.2 n >>= fun w => pure (r.1, w.1) := by
    funext f
    unfold convertWith
    refine bind_congr fun d => ?_
    refine bind_congr (x := X.init seed (d ++ ctx) nonce) fun st => ?_
    refine bind_congr (x := X.next st Idpf.KEY_SIZE) fun r => ?_
    exact congrArg (fun w => w >>= fun w : List F × X.State => (pure (r.1, w.1) : Res (Bytes × List F)))
      (nextVec_withFuel F X f f n r.2)
  rw [this]
  exact Term.bind (Term.const (by nf)) fun d => Term.bind (Term.const (hX.init _ _ _)) fun st =>
    Term.bind (Term.const (hX.next _ _)) fun r => Term.bind (term_nextVec hX hF _ _) fun w =>
    Term.const (NF.pure _)

variable (hL : Spec.SamplingEnds (XofTurboShake128 prims 0) Field255)
include hL

theorem term_convert (level : ℕ) (seed ctx nonce : Bytes) :
    Term fun f => I.convert prims f level seed ctx nonce := by
  have : (fun f => I.convert prims f level seed ctx nonce) = fun f =>
      convertWith ((I.currentXof prims 0 level).withFuel f) (Fk (I.currentField level)) I.valueLen seed ctx nonce := by
    funext f
    rw [← currentXof_withFuel]
    rfl
  rw [this]
  exact term_convertWith (currentXof_nf I prims level) (currentXof_ends I prims hL level) _ _ _ _

theorem term_genLevel (alpha : List Bool) (bi : List (List Field64)) (bl : List Field255) (ctx nonce : Bytes)
    (st : Idpf.GenState) (level : ℕ) :
    Term fun f => I.genLevel prims f alpha bi bl ctx nonce st level := by
  unfold Idpf.genLevel
  refine Term.bind (Term.const (NF.getI _ _)) fun bit => ?_
  refine Term.bind (term_extend I prims _ _ _ _) fun a => Term.bind (term_extend I prims _ _ _ _) fun b => ?_
  refine Term.bind (term_convert I prims hL _ _ _ _) fun c => Term.bind (term_convert I prims hL _ _ _ _) fun d => ?_
  refine Term.const (NF.bind' ?_ fun _ => by nf)
  cases I.currentField level
  · exact NF.getI _ _
  · exact NF.ok _

theorem term_gen (alpha : List Bool) (bi : List (List Field64)) (bl : List Field255) (ctx nonce rand : Bytes) :
    Term fun f => I.gen prims f alpha bi bl ctx nonce rand := by
  unfold Idpf.gen
  refine Term.bind (Term.const (by nf)) fun _ => Term.bind (Term.const (by nf)) fun _ =>
    Term.bind (Term.const (by nf)) fun _ => Term.bind (Term.const (by nf)) fun _ => ?_
  exact Term.bind (Term.forFold fun st l => term_genLevel I prims hL _ _ _ _ _ _ _) fun st => Term.const (NF.pure _)

theorem term_evalNext (seed : Bytes) (c : Bool) (cw : CorrectionWord) (level : ℕ) (bit : Bool)
    (ctx nonce : Bytes) : Term fun f => I.evalNext prims f seed c cw level bit ctx nonce := by
  unfold Idpf.evalNext
  refine Term.bind (term_extend I prims _ _ _ _) fun a => Term.bind (term_convert I prims hL _ _ _ _) fun b => ?_
  exact Term.const (by nf)

theorem term_evalPrefix (j : ℕ) (pub : List CorrectionWord) (key : Bytes) (level : ℕ)
    (ctx nonce : Bytes) (p : List Bool) : Term fun f => I.evalPrefix prims f j pub key level ctx nonce p := by
  unfold Idpf.evalPrefix Idpf.evalStep
  refine Term.bind (Term.const (by nf)) fun _ => Term.bind (Term.forFold fun st l => ?_) fun st => ?_
  · exact Term.bind (Term.const (NF.getI _ _)) fun b => Term.bind (Term.const (NF.getI _ _)) fun cw =>
      Term.bind (term_evalNext I prims hL _ _ _ _ _ _ _) fun r => Term.const (NF.pure _)
  · exact Term.bind (Term.const (NF.getI _ _)) fun b => Term.bind (Term.const (NF.getI _ _)) fun cw =>
      Term.bind (term_evalNext I prims hL _ _ _ _ _ _ _) fun r =>
        Term.ite (Term.const (NF.pure _)) (Term.const (NF.pure _))

theorem term_eval (j : ℤ) (pub : List CorrectionWord) (key : Bytes) (level : ℤ) (ps : List (List Bool))
    (ctx nonce : Bytes) : Term fun f => I.eval prims f j pub key level ps ctx nonce := by
  unfold Idpf.eval
  refine Term.bind (Term.const (by nf)) fun _ => Term.bind (Term.const (by nf)) fun _ =>
    Term.bind (Term.const (by nf)) fun _ => Term.mapRes fun p => term_evalPrefix I prims hL _ _ _ _ _ _ _

end

theorem NF.packBits (l : List Bool) : NF (packBits l) := by unfold Vdaf.packBits; nf
theorem NF.unpackBits (b : Bytes) (n : ℕ) : NF (unpackBits b n) := by unfold Vdaf.unpackBits; nf
theorem NF.encodeVecAs (κ : Kind) (v : FieldVec) : NF (encodeVecAs κ v) := by
  unfold Vdaf.encodeVecAs
  refine NF.forFold fun b a => ?_
  split
  · nf
  · next e he => exact ⟨fun h => by cases h; exact (NF.toLeBytes _ _).ne he⟩
macro_rules | `(tactic| nf_step) => `(tactic| first
  | exact NF.packBits _ | exact NF.unpackBits _ _ | exact NF.encodeVecAs _ _ | exact NF.decodeVec _)

theorem NF.idpfEncode (p : List CorrectionWord) : NF (Idpf.encodePublicShare p) := by
  unfold Idpf.encodePublicShare; nf
theorem NF.idpfDecode (I : Idpf) (b : Bytes) : NF (I.decodePublicShare b) := by
  unfold Idpf.decodePublicShare; nf


/-! ### Poplar1 -/

section
variable (P : Poplar1) (prims : Prims)

theorem NF.vecAddF (a b : FieldVec) : NF (vecAddF a b) := by unfold Vdaf.vecAddF; nf
theorem NF.encodeIdpfFieldVec (v : FieldVec) : NF (encodeIdpfFieldVec v) := by unfold Vdaf.encodeIdpfFieldVec; nf
theorem NF.decodeAtLevel (l : ℕ) (b : Bytes) : NF (P.decodeAtLevel l b) := by unfold Poplar1.decodeAtLevel; nf
macro_rules | `(tactic| nf_step) => `(tactic| first
  | exact NF.vecAddF _ _ | exact NF.encodeIdpfFieldVec _ | exact NF.decodeAtLevel _ _ _)

theorem NF.poplarDecodeInputShare {prims : Prims} (j : ℕ) (b : Bytes) : NF (P.decodeInputShare prims 0 j b) := by
  unfold Poplar1.decodeInputShare
  exact NF.bind' (NF.front _ _) fun _ => NF.bind' (NF.front _ _) fun _ => NF.bind' (NF.front _ _) fun _ =>
    NF.bind' (NF.decodeVec _) fun _ => NF.bind' (NF.front _ _) fun _ => NF.bind' (NF.decodeVec _) fun _ =>
    NF.bind' (NF.raiseIf _ _) fun _ => NF.pure _

theorem turbo_withFuel (f : ℕ) : XofTurboShake128 prims f = (XofTurboShake128 prims 0).withFuel f := rfl

variable {prims} (hS : Spec.SamplingEnds (XofTurboShake128 prims 0) Field64)
  (hL : Spec.SamplingEnds (XofTurboShake128 prims 0) Field255)
include hS hL

theorem kind_ends (κ : Kind) : Spec.SamplingEnds (XofTurboShake128 prims 0) (Fk κ) := by
  cases κ
  · exact hS
  · exact hL

theorem term_turboVec (κ : Kind) (st : TurboShakeState) (n : ℕ) :
    Term (α := List (Fk κ) × TurboShakeState) fun f => (Poplar1.xof prims f).nextVec (Fk κ) f st n := by
  have : (fun f => (Poplar1.xof prims f).nextVec (Fk κ) f st n : ℕ → Res (List (Fk κ) × TurboShakeState)) =
      fun f => (XofTurboShake128 prims 0).nextVec (Fk κ) f st n := by
    funext f
    exact nextVec_withFuel (Fk κ) (XofTurboShake128 prims 0) f f n st
  rw [this]
  exact term_nextVec (turbo_nf prims 0) (kind_ends hS hL κ) st n

omit hS hL in
theorem term_turboInit (s d b : Bytes) :
    Term (α := TurboShakeState) fun f => (Poplar1.xof prims f).init s d b :=
  Term.const (r := (XofTurboShake128 prims 0).init s d b) ((turbo_nf prims 0).init s d b)

theorem term_corrOffsets (κ : Kind) (u : ℕ) (ctx nonce s0 s1 : Bytes) (n : ℕ) :
    Term fun f => Poplar1.corrOffsets prims f κ u ctx nonce s0 s1 n := by
  have h : ∀ s d b n, Term fun f => (Poplar1.xof prims f).expandIntoVec (Fk κ) s d b n :=
    fun s d b n => term_expand (turbo_nf prims 0) (kind_ends hS hL κ) s d b n
  unfold Poplar1.corrOffsets Poplar1.dst
  exact Term.bind (Term.const (by nf)) fun _ => Term.bind (Term.const (by nf)) fun _ => Term.bind (h _ _ _ _) fun _ =>
    Term.bind (Term.const (by nf)) fun _ => Term.bind (Term.const (by nf)) fun _ => Term.bind (h _ _ _ _) fun _ =>
    Term.const (by nf)

theorem term_corrLevel (bi : List (List Field64)) (bl : List Field255)
    (st : TurboShakeState × List (Σ κ, Fk κ) × Poplar1.CorrState) (level : ℕ) :
    Term (α := TurboShakeState × List (Σ κ, Fk κ) × Poplar1.CorrState)
      fun f => P.corrLevel prims f bi bl st level := by
  obtain ⟨x, offsets, corr⟩ := st
  unfold Poplar1.corrLevel
  refine Term.bind (Term.const ?_) fun beta => Term.bind (Term.const (NF.getI _ _)) fun k => ?_
  · cases P.idpf.currentField level
    · exact NF.getI _ _
    · exact NF.ok _
  · have he : Term (α := TurboShakeState × List (Σ κ, Fk κ) × Poplar1.CorrState) fun _ =>
        .error (.value "not enough values to unpack") := Term.const (NF.error (by intro h; cases h))
    rcases offsets.take 3 with _ | ⟨a, _ | ⟨b, _ | ⟨c, _ | ⟨d, t⟩⟩⟩⟩
    · exact he
    · exact he
    · exact he
    · refine Term.bind (Term.const (NF.ofInt _)) fun two => ?_
      refine Term.bind (α := List (Fk (P.idpf.currentField level)) × TurboShakeState)
        (term_turboVec hS hL _ _ _) fun r => Term.bind (Term.const (NF.vecSub _ _)) fun c => ?_
      exact Term.const (α := TurboShakeState × List (Σ κ, Fk κ) × Poplar1.CorrState)
        (r := .ok (r.2, offsets.drop 3, corr.push _ c r.1)) (NF.ok _)
    · exact he

theorem term_poplarShard (ctx : Bytes) (m : List Bool) (nonce rand : Bytes) :
    Term fun f => P.shard prims f ctx m nonce rand := by
  unfold Poplar1.shard
  refine Term.bind (Term.const (NF.raiseIf _ _)) fun _ => ?_
  refine Term.bind (Term.const (r := raiseIf (rand.length ≠ Poplar1.randSize prims 0) _) (NF.raiseIf _ _)) fun _ => ?_
  refine Term.bind (Term.const (r := raiseIf (rand.length ≠ Poplar1.randSize prims 0) _) (NF.raiseIf _ _)) fun _ => ?_
  refine Term.bind (Term.const (NF.front _ _)) ?_
  rintro ⟨ir, rand'⟩
  refine Term.bind (Term.const (r := front 2 (chunks rand' 3 32)) (NF.front _ _)) ?_
  rintro ⟨cs, ss⟩
  refine Term.bind (Term.const (NF.getI _ _)) fun c0 => Term.bind (Term.const (NF.getI _ _)) fun c1 => ?_
  refine Term.bind (Term.const (NF.front _ _)) ?_
  rintro ⟨s, _⟩
  refine Term.bind (Term.const (NF.getI _ _)) fun s0 => ?_
  refine Term.bind (Term.const (NF.domainSeparationTag _ _ _)) fun d => ?_
  refine Term.bind (α := TurboShakeState) (term_turboInit _ _ _) fun x => ?_
  refine Term.bind (α := List Field64 × TurboShakeState) (term_turboVec hS hL .inner _ _) ?_
  rintro ⟨ks, x⟩
  refine Term.bind (Term.const (NF.ofInt _)) fun one => Term.bind (Term.const (NF.ofInt _)) fun oneLeaf => ?_
  refine Term.bind (α := List Field255 × TurboShakeState) (term_turboVec hS hL .leaf _ _) ?_
  rintro ⟨kl, x⟩
  refine Term.bind (term_gen P.idpf prims hL _ _ _ _ _ _) ?_
  rintro ⟨pub, keys⟩
  refine Term.bind (term_corrOffsets hS hL _ _ _ _ _ _ _) fun oi =>
    Term.bind (term_corrOffsets hS hL _ _ _ _ _ _ _) fun ol => ?_
  refine Term.bind (α := TurboShakeState × List (Σ κ, Fk κ) × Poplar1.CorrState)
    (Term.forFold (β := TurboShakeState × List (Σ κ, Fk κ) × Poplar1.CorrState)
      (l := List.range P.idpf.bits) (b := (x, oi.map (⟨.inner, ·⟩) ++ ol.map (⟨.leaf, ·⟩), ⟨[], [], none⟩))
      (k := fun f => P.corrLevel prims f (ks.map fun k => [one, k]) ([oneLeaf] ++ kl))
      fun st l => term_corrLevel P hS hL _ _ _ _) ?_
  rintro ⟨_, _, corr⟩
  dsimp only
  cases corr.leaf
  · exact Term.const (by nf)
  · exact Term.const (by nf)


theorem term_corrXof (ctx : Bytes) (j level : ℕ) (nonce seed : Bytes) :
    Term (α := TurboShakeState) fun f => P.corrXof prims f ctx j level nonce seed := by
  unfold Poplar1.corrXof
  refine Term.ite ?_ ?_
  · refine Term.bind (Term.const (NF.domainSeparationTag _ _ _)) fun d => Term.bind (Term.const (NF.byte _)) fun b => ?_
    refine Term.bind (α := TurboShakeState) (term_turboInit _ _ _) fun x => ?_
    exact Term.bind (α := List (Fk (P.idpf.currentField level)) × TurboShakeState)
        (term_turboVec hS hL _ _ _) fun r => Term.const (α := TurboShakeState) (NF.pure _)
  · exact Term.bind (Term.const (NF.domainSeparationTag _ _ _)) fun d => Term.bind (Term.const (NF.byte _)) fun b =>
      term_turboInit _ _ _

theorem term_corrShares (ctx : Bytes) (j level : ℕ) (nonce seed : Bytes) :
    Term fun f => P.corrShares prims f ctx j level nonce seed := by
  unfold Poplar1.corrShares
  refine Term.bind (α := TurboShakeState) (term_corrXof P hS hL _ _ _ _ _) fun x => ?_
  exact Term.bind (α := List (Fk (P.idpf.currentField level)) × TurboShakeState)
    (term_turboVec hS hL _ _ _) fun r => Term.const (NF.pure _)

theorem term_verifyRand (key ctx nonce : Bytes) (level n : ℕ) :
    Term fun f => P.verifyRand prims f key ctx nonce level n := by
  unfold Poplar1.verifyRand
  refine Term.bind (Term.const (NF.domainSeparationTag _ _ _)) fun d => Term.bind (Term.const (NF.toBeBytes _ _)) fun b => ?_
  refine Term.bind (α := TurboShakeState) (term_turboInit _ _ _) fun x => ?_
  exact Term.bind (α := List (Fk (P.idpf.currentField level)) × TurboShakeState)
    (term_turboVec hS hL _ _ _) fun r => Term.const (NF.pure _)

theorem term_poplarVerifyInit (key ctx : Bytes) (j : ℕ) (a : Poplar1AggParam) (nonce : Bytes)
    (pub : List CorrectionWord) (s : Poplar1InputShare) :
    Term fun f => P.verifyInit prims f key ctx j a nonce pub s := by
  obtain ⟨level, ps⟩ := a
  unfold Poplar1.verifyInit
  refine Term.bind (term_eval P.idpf prims hL _ _ _ _ _ _ _) fun v => Term.bind (term_corrShares P hS hL _ _ _ _ _) ?_
  rintro (_ | ⟨a, _ | ⟨b, _ | ⟨c, _ | ⟨d, t⟩⟩⟩⟩)
  · exact Term.const (NF.error (by intro h; cases h))
  · exact Term.const (NF.error (by intro h; cases h))
  · exact Term.const (NF.error (by intro h; cases h))
  · dsimp only
    rcases Poplar1.abShares level s.corrInner s.corrLeaf (P.idpf.currentField level) with _ | ⟨A, _ | ⟨B, _ | ⟨C, t⟩⟩⟩
    · exact Term.const (NF.error (by intro h; cases h))
    · exact Term.const (NF.error (by intro h; cases h))
    · refine Term.bind (term_verifyRand P hS hL _ _ _ _ _) fun r => Term.const ?_
      unfold Poplar1.sketch
      nf
    · exact Term.const (NF.error (by intro h; cases h))
  · exact Term.const (NF.error (by intro h; cases h))

theorem poplar1_terminates : Spec.AllTerminate fun f => P.vdaf prims f where
  shard := term_poplarShard P hS hL
  isValid a as := Term.const (r := Poplar1.isValid a as) (by unfold Poplar1.isValid; nf)
  verifyInit := term_poplarVerifyInit P hS hL
  sharesToMessage ctx a vs := Term.const (r := Poplar1.sharesToMessage ctx a vs)
    (by unfold Poplar1.sharesToMessage; nf)
  verifyNext c st m := Term.const (r := Poplar1.verifyNext c st m) (by unfold Poplar1.verifyNext; nf)
  aggInit a := Term.const (r := P.aggInit a) (NF.ok _)
  aggUpdate a s o := Term.const (r := Poplar1.aggUpdate a s o) (NF.vecAddF _ _)
  merge a as := Term.const (r := P.merge a as) (by unfold Poplar1.merge; nf)
  unshard a as n := Term.const (r := P.unshard a as n) (by unfold Poplar1.unshard Poplar1.merge; nf)
  encodeAggParam a := Term.const (r := Poplar1.encodeAggParam a)
    (by unfold Poplar1.encodeAggParam Poplar1.toByte; nf)
  decodeAggParam b := Term.const (r := Poplar1.decodeAggParam b)
    (by unfold Poplar1.decodeAggParam Poplar1.decodePrefix; nf)
  encodePublicShare p := Term.const (r := Poplar1.encodePublicShare p) (NF.idpfEncode p)
  decodePublicShare p := Term.const (r := P.decodePublicShare p) (NF.idpfDecode _ p)
  encodeInputShare p := Term.const (r := Poplar1.encodeInputShare p) (by unfold Poplar1.encodeInputShare; nf)
  decodeInputShare j p := Term.const (r := P.decodeInputShare prims 0 j p)
    (NF.poplarDecodeInputShare P _ _)
  encodeVerifierShare p := Term.const (r := Poplar1.encodeVerifierShare p) (NF.encodeIdpfFieldVec _)
  decodeVerifierShare st p := Term.const (r := P.decodeVerifierShare st p) (NF.decodeAtLevel _ _ _)
  encodeVerifierMessage m := Term.const (r := Poplar1.encodeVerifierMessage m)
    (by unfold Poplar1.encodeVerifierMessage; nf)
  decodeVerifierMessage st p := Term.const (r := P.decodeVerifierMessage st p)
    (by unfold Poplar1.decodeVerifierMessage; nf)

end
end Vdaf
