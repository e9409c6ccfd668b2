import Verif.Proofs.OpenCost
import Verif.Proofs.StreamSample
import Verif.Proofs.Idpf

/-! How often an Aggregator evaluates the primitives for a report of Poplar1. -/

set_option linter.unusedSectionVars false

namespace Vdaf.Open
open Spec PingPong

section
variable {A : Set Prims} {fuel : ℕ} {α : Type}

/-! ### `XofTurboShake128` -/

/-- `__init__` -/
def turboInit (p : Prims) (seed dst binder : Bytes) : Res TurboShakeState := (XofTurboShake128 p 0).init seed dst binder

/-- `next` -/
def turboNext (p : Prims) (st : TurboShakeState) (n : ℕ) : Res (Bytes × TurboShakeState) := (XofTurboShake128 p 0).next st n

/-- `next_vec` -/
def turboVec (F : Type) [PyField F] (p : Prims) (f : ℕ) (st : TurboShakeState) (n : ℕ) : Res (List F × TurboShakeState) :=
  (XofTurboShake128 p f).nextVec F f st n

/-- Primitives for which the output of TurboSHAKE128 is `s` -/
def constPrims (s : ℕ → UInt8) : Prims := ⟨fun _ _ => s, fun _ b => b, fun _ _ h => h⟩

theorem uses_turbo (seed dst binder : Bytes) (g : Prims → TurboShakeState → Res α)
    (hg : ∀ p m, g p ⟨m, 0⟩ = g (constPrims (p.turboShake m 1)) ⟨m, 0⟩) :
    Uses A 1 fun p => turboInit p seed dst binder >>= g p := by
  unfold turboInit
  by_cases hd : dst.length < 2 ^ 16
  · by_cases hs : seed.length < 2 ^ 8
    · refine (Uses.shake (turboInput seed dst binder) fun s => g (constPrims s) ⟨turboInput seed dst binder, 0⟩).congr
        fun p _ => ?_
      rw [turbo_init, if_pos hd, if_pos hs, ← hg]
      rfl
    · refine (Uses.const (Except.error (.value "bad to_le_bytes call"))).congr fun p _ => ?_
      rw [turbo_init, if_pos hd, if_neg hs]
      rfl
  · refine (Uses.const (Except.error (.value "bad to_le_bytes call"))).congr fun p _ => ?_
    rw [turbo_init, if_neg hd]
    rfl

theorem turboVec_const (F : Type) [PyField F] (p : Prims) (f : ℕ) (m : Bytes) (pos n : ℕ) :
    turboVec F (constPrims (p.turboShake m 1)) f ⟨m, pos⟩ n = turboVec F p f ⟨m, pos⟩ n := by
  unfold turboVec
  rw [turbo_sampS, turbo_sampS]
  rfl

theorem turboVec_pos (F : Type) [PyField F] (p : Prims) (f : ℕ) (m : Bytes) (pos n : ℕ) {r : List F × TurboShakeState}
    (h : turboVec F p f ⟨m, pos⟩ n = .ok r) : r.2.m = m := by
  unfold turboVec at h
  rw [turbo_sampS] at h
  cases hs : sampS F (p.turboShake m 1) f pos n with
  | error e => rw [hs] at h; cases h
  | ok x => rw [hs] at h; cases h; rfl

/-! ### `XofFixedKeyAes128` -/

/-- `__init__` -/
def aesInit (p : Prims) (seed dst binder : Bytes) : Res FixedKeyAesState := (XofFixedKeyAes128 p 0).init seed dst binder

/-- `next` -/
def aesNext (p : Prims) (st : FixedKeyAesState) (n : ℕ) : Res (Bytes × FixedKeyAesState) :=
  (XofFixedKeyAes128 p 0).next st n

/-- The loop of `next_vec` -/
def aesLoop (F : Type) [PyField F] (p : Prims) (g m length f : ℕ) (st : FixedKeyAesState) (vec : List F) :
    Res (List F × FixedKeyAesState) := (XofFixedKeyAes128 p g).nextVecLoop F m length f st vec

/-- `next_vec` -/
def aesVec (F : Type) [PyField F] (p : Prims) (f : ℕ) (st : FixedKeyAesState) (n : ℕ) : Res (List F × FixedKeyAesState) :=
  (XofFixedKeyAes128 p f).nextVec F f st n

theorem aesLoop_succ (F : Type) [PyField F] (p : Prims) (g m length f : ℕ) (st : FixedKeyAesState) (vec : List F) :
    aesLoop F p g m length (f + 1) st vec = if vec.length < length then do
        let (b, xof) ← aesNext p st (PyField.encSize F)
        if fromLeBytes b &&& m < PyField.modulus F then do
          let fx ← ofInt F ((fromLeBytes b &&& m : ℕ) : Int)
          aesLoop F p g m length f xof (vec ++ [fx])
        else aesLoop F p g m length f xof vec
      else .ok (vec, st) := rfl

theorem uses_aesNext (st : FixedKeyAesState) (n : ℕ) : Uses A (n / 16 + 2) fun p => aesNext p st n := by
  refine (Uses.map (fun r : Res (List Bytes) => r >>= fun hb => .ok (slice (concat hb) (st.lengthConsumed % 16)
    (st.lengthConsumed % 16 + n), (⟨st.lengthConsumed + n, st.fixedKey, st.seed⟩ : FixedKeyAesState)))
    ((Uses.mapRes (c := 1) (g := fun i p => do
      let b ← toLeBytes (i : ℕ) 16
      return hashBlock p st.fixedKey (xor st.seed b))
      (List.range' (st.lengthConsumed / 16) ((st.lengthConsumed + n) / 16 + 1 - st.lengthConsumed / 16))
      fun i _ => ?_).mono ?_)).congr fun p _ => rfl
  · refine Uses.bindConst (toLeBytes (i : ℕ) 16) (fun _ _ => rfl) fun b _ => ?_
    exact Uses.aes st.fixedKey _ fun x => (.ok (xor x _) : Res Bytes)
  · rw [List.length_range']
    omega

theorem uses_aesLoop (F : Type) [PyField F] (hF : PyField.encSize F ≤ 8) (g m length : ℕ) : ∀ (f : ℕ)
    (st : FixedKeyAesState) (vec : List F), Uses A (2 * f) fun p => aesLoop F p g m length f st vec
  | 0, st, vec => Uses.const (if vec.length < length then Except.error Err.fuel else Except.ok (vec, st))
  | f + 1, st, vec => by
    simp only [aesLoop_succ]
    by_cases h : vec.length < length
    · simp only [if_pos h]
      rw [show 2 * (f + 1) = 2 + 2 * f by ring]
      refine Uses.bind (c := 2) (d := 2 * f) ((uses_aesNext st (PyField.encSize F)).mono (by omega)) fun x => ?_
      split
      · refine Uses.bindConst (ofInt F _) (fun _ _ => rfl) fun fx _ => ?_
        exact uses_aesLoop F hF g m length f x.2 _
      · exact uses_aesLoop F hF g m length f x.2 _
    · simp only [if_neg h]
      exact Uses.const (Except.ok (vec, st))

theorem uses_aesVec (F : Type) [PyField F] (hF : PyField.encSize F ≤ 8) (f length : ℕ) (st : FixedKeyAesState) :
    Uses A (2 * f) fun p => aesVec F p f st length := by
  refine Uses.congr (f := fun p => nextPowerOf2 (PyField.modulus F) >>= fun n => aesLoop F p f (n - 1) length f st []) ?_
    fun p _ => rfl
  refine Uses.bindConst (nextPowerOf2 (PyField.modulus F)) (fun _ _ => rfl) fun n _ => ?_
  exact uses_aesLoop F hF _ _ _ _ _ _

/-- The primitives for which TurboSHAKE128 with domain byte 2 is as for `prims` -/
def sameFixed (prims : Prims) : Set Prims := {p | ∀ m, p.turboShake m 2 = prims.turboShake m 2}

theorem uses_aes {prims : Prims} {c : ℕ} (seed dst binder : Bytes) (g : FixedKeyAesState → Prims → Res α)
    (hg : ∀ st, Uses (sameFixed prims) c (g st)) : Uses (sameFixed prims) c fun p =>
      aesInit p seed dst binder >>= fun st => g st p := by
  refine Uses.bindConst (aesInit prims seed dst binder) (fun p hp => ?_) fun st _ => hg st
  unfold aesInit XofFixedKeyAes128
  simp only [hp _]

end

/-! ### The IDPF -/

section
variable {prims : Prims} {fuel : ℕ} (I : Idpf)

/-- `extend`, for any XOF -/
def extendX (X : Xof) (seed ctx nonce : Bytes) : Res ((Bytes × Bytes) × (Bool × Bool)) := do
  let dst ← formatDst 1 0 0
  let xof ← X.init seed (dst ++ ctx) nonce
  let (s0, xof) ← X.next xof Idpf.KEY_SIZE
  let (s1, _) ← X.next xof Idpf.KEY_SIZE
  let (s0, t0) ← Idpf.ctrlBit s0
  let (s1, t1) ← Idpf.ctrlBit s1
  return ((s0, s1), (t0, t1))

/-- `convert`, for any XOF -/
def convertX (F : Type) [PyField F] (X : Xof) (length : ℕ) (seed ctx nonce : Bytes) : Res (Bytes × List F) := do
  let dst ← formatDst 1 0 1
  let xof ← X.init seed (dst ++ ctx) nonce
  let (nextSeed, xof) ← X.next xof Idpf.KEY_SIZE
  let (w, _) ← X.nextVec F X.fuel xof length
  return (nextSeed, w)

theorem uses_extend (level : ℕ) (seed ctx nonce : Bytes) :
    Uses (sameFixed prims) 6 fun p => I.extend p fuel level seed ctx nonce := by
  by_cases h : level < I.bits - 1
  · refine Uses.congr (f := fun p => formatDst 1 0 0 >>= fun dst => aesInit p seed (dst ++ ctx) nonce >>= fun st =>
        aesNext p st 16 >>= fun x => aesNext p x.2 16 >>= fun y => do
          let (s0, t0) ← Idpf.ctrlBit x.1
          let (s1, t1) ← Idpf.ctrlBit y.1
          return ((s0, s1), (t0, t1))) ?_
      fun p _ => (rfl : _ = extendX (XofFixedKeyAes128 p fuel) seed ctx nonce).trans
        (congrArg (fun X => extendX X seed ctx nonce) (if_pos h).symm)
    refine Uses.bindConst (formatDst 1 0 0) (fun _ _ => rfl) fun dst _ => ?_
    refine uses_aes seed (dst ++ ctx) nonce _ fun st => ?_
    refine Uses.bind (c := 3) (d := 3) (uses_aesNext st 16) fun x => ?_
    exact (uses_aesNext x.2 16).map fun r => r >>= fun y => do
      let (s0, t0) ← Idpf.ctrlBit x.1
      let (s1, t1) ← Idpf.ctrlBit y.1
      return ((s0, s1), (t0, t1))
  · refine Uses.congr (f := fun p => formatDst 1 0 0 >>= fun dst => turboInit p seed (dst ++ ctx) nonce >>= fun st =>
        turboNext p st 16 >>= fun x => turboNext p x.2 16 >>= fun y => do
          let (s0, t0) ← Idpf.ctrlBit x.1
          let (s1, t1) ← Idpf.ctrlBit y.1
          return ((s0, s1), (t0, t1))) ?_
      fun p _ => (rfl : _ = extendX (XofTurboShake128 p fuel) seed ctx nonce).trans
        (congrArg (fun X => extendX X seed ctx nonce) (if_neg h).symm)
    refine Uses.bindConst (formatDst 1 0 0) (fun _ _ => rfl) fun dst _ => ?_
    exact (uses_turbo seed (dst ++ ctx) nonce (fun p st => turboNext p st 16 >>= fun x => turboNext p x.2 16 >>= fun y => do
      let (s0, t0) ← Idpf.ctrlBit x.1
      let (s1, t1) ← Idpf.ctrlBit y.1
      return ((s0, s1), (t0, t1))) fun p m => rfl).mono (by norm_num)

theorem uses_convert (level : ℕ) (seed ctx nonce : Bytes) :
    Uses (sameFixed prims) (2 * fuel + 3) fun p => I.convert p fuel level seed ctx nonce := by
  by_cases h : level < I.bits - 1
  · have hk : PyField.encSize (Fk (I.currentField level)) ≤ 8 := by
      unfold Idpf.currentField
      rw [if_pos h]
      exact le_of_eq rfl
    refine Uses.congr (f := fun p => formatDst 1 0 1 >>= fun dst => aesInit p seed (dst ++ ctx) nonce >>= fun st =>
        aesNext p st 16 >>= fun x => aesVec (Fk (I.currentField level)) p fuel x.2 I.valueLen >>= fun y =>
          .ok (x.1, y.1)) ?_
      fun p _ => (rfl : _ = convertX (Fk (I.currentField level)) (XofFixedKeyAes128 p fuel) I.valueLen seed ctx nonce).trans
        (congrArg (fun X => convertX (Fk (I.currentField level)) X I.valueLen seed ctx nonce) (if_pos h).symm)
    refine Uses.bindConst (formatDst 1 0 1) (fun _ _ => rfl) fun dst _ => ?_
    refine uses_aes seed (dst ++ ctx) nonce _ fun st => ?_
    rw [Nat.add_comm]
    refine Uses.bind (c := 3) (d := 2 * fuel) (uses_aesNext st 16) fun x => ?_
    exact (uses_aesVec _ hk fuel I.valueLen x.2).map fun r => r >>= fun y => .ok (x.1, y.1)
  · refine Uses.congr (f := fun p => formatDst 1 0 1 >>= fun dst => turboInit p seed (dst ++ ctx) nonce >>= fun st =>
        turboNext p st 16 >>= fun x => turboVec (Fk (I.currentField level)) p fuel x.2 I.valueLen >>= fun y =>
          .ok (x.1, y.1)) ?_
      fun p _ => (rfl : _ = convertX (Fk (I.currentField level)) (XofTurboShake128 p fuel) I.valueLen seed ctx nonce).trans
        (congrArg (fun X => convertX (Fk (I.currentField level)) X I.valueLen seed ctx nonce) (if_neg h).symm)
    refine Uses.bindConst (formatDst 1 0 1) (fun _ _ => rfl) fun dst _ => ?_
    refine (uses_turbo seed (dst ++ ctx) nonce (fun p st => turboNext p st 16 >>= fun x =>
      turboVec (Fk (I.currentField level)) p fuel x.2 I.valueLen >>= fun y => .ok (x.1, y.1)) fun p m => ?_).mono
      (by clear h; omega)
    change (turboVec _ p fuel ⟨m, 0 + 16⟩ I.valueLen >>= _) = (turboVec _ (constPrims _) fuel ⟨m, 0 + 16⟩ I.valueLen >>= _)
    rw [turboVec_const]
    rfl

theorem uses_evalNext (prevSeed : Bytes) (prevCtrl : Bool) (cw : CorrectionWord) (level : ℕ) (bit : Bool)
    (ctx nonce : Bytes) : Uses (sameFixed prims) (2 * fuel + 9) fun p =>
      I.evalNext p fuel prevSeed prevCtrl cw level bit ctx nonce := by
  unfold Idpf.evalNext
  rw [show 2 * fuel + 9 = 6 + (2 * fuel + 3) by ring]
  refine Uses.bind (uses_extend I level prevSeed ctx nonce) fun x => ?_
  dsimp only
  refine (Uses.bind (d := 0) (uses_convert I level _ ctx nonce) fun y => ?_).mono le_rfl
  exact Uses.const _

theorem uses_evalPrefix (aggId : ℕ) (publicShare : List CorrectionWord) (key : Bytes) (level : ℕ) (ctx nonce : Bytes)
    (prefix_ : List Bool) : Uses (sameFixed prims) ((level + 1) * (2 * fuel + 9)) fun p =>
      I.evalPrefix p fuel aggId publicShare key level ctx nonce prefix_ := by
  unfold Idpf.evalPrefix
  refine Uses.bindConst (raiseIf (prefix_.length ≠ level + 1) "incorrect prefix length") (fun _ _ => rfl) fun _ _ => ?_
  rw [Nat.add_mul, Nat.one_mul]
  refine Uses.bind (c := level * (2 * fuel + 9)) (d := 2 * fuel + 9) ((Uses.fold (c := 2 * fuel + 9)
    (g := fun st i p => I.evalStep p fuel publicShare prefix_ ctx nonce st i) (fun st i => ?_) (List.range level) _).mono
    (by rw [List.length_range])) fun x => ?_
  · unfold Idpf.evalStep
    refine Uses.bindConst (getI prefix_ i) (fun _ _ => rfl) fun bit _ => ?_
    refine Uses.bindConst (getI publicShare i) (fun _ _ => rfl) fun cw _ => ?_
    exact (uses_evalNext I _ _ cw i bit ctx nonce).map fun r => r >>= fun y => .ok (y.1, y.2.1)
  · refine Uses.bindConst (getI prefix_ level) (fun _ _ => rfl) fun bit _ => ?_
    refine Uses.bindConst (getI publicShare level) (fun _ _ => rfl) fun cw _ => ?_
    exact (uses_evalNext I _ _ cw level bit ctx nonce).map fun r => r >>= fun y =>
      if aggId = 0 then .ok y.2.2 else .ok (vecNeg y.2.2)

theorem uses_eval (aggId : Int) (publicShare : List CorrectionWord) (key : Bytes) (level : ℕ)
    (prefixes : List (List Bool)) (ctx nonce : Bytes) :
    Uses (sameFixed prims) (prefixes.length * (I.bits * (2 * fuel + 9))) fun p =>
      I.eval p fuel aggId publicShare key level prefixes ctx nonce := by
  unfold Idpf.eval
  refine Uses.bindConst (raiseIf (¬ (0 ≤ aggId ∧ aggId < Idpf.SHARES)) "aggregator id out of range") (fun _ _ => rfl)
    fun _ _ => ?_
  refine Uses.bindConst (raiseIf (¬ (0 ≤ (level : Int) ∧ (level : Int) < I.bits)) "level out of range") (fun _ _ => rfl)
    fun _ hl => ?_
  have hl : level < I.bits := by
    unfold raiseIf at hl
    split at hl
    · cases hl
    · next h => simp only [decide_eq_true_eq, not_not] at h; exact_mod_cast h.2
  refine Uses.bindConst (raiseIf (prefixes.dedup.length ≠ prefixes.length) "prefixes must be unique") (fun _ _ => rfl)
    fun _ _ => ?_
  exact Uses.mapRes prefixes fun x _ => (uses_evalPrefix I aggId.toNat publicShare key _ ctx nonce x).mono
    (Nat.mul_le_mul_right _ hl)

end

/-! ### Poplar1 -/

section
variable {prims : Prims} {fuel : ℕ} (P : Poplar1)

theorem uses_corrShares (ctx : Bytes) (aggId level : ℕ) (nonce seed : Bytes) :
    Uses (sameFixed prims) 1 fun p => P.corrShares p fuel ctx aggId level nonce seed := by
  by_cases h : level < P.idpf.bits - 1
  · refine Uses.congr (f := fun p => Poplar1.dst USAGE_CORR_INNER ctx >>= fun tag => byte aggId >>= fun b =>
        turboInit p seed tag (b ++ nonce) >>= fun st =>
        turboVec (Fk (P.idpf.currentField level)) p fuel st (3 * level) >>= fun x =>
        turboVec (Fk (P.idpf.currentField level)) p fuel x.2 3 >>= fun y => .ok y.1) ?_ fun p _ => ?_
    · refine Uses.bindConst (Poplar1.dst USAGE_CORR_INNER ctx) (fun _ _ => rfl) fun tag _ => ?_
      refine Uses.bindConst (byte aggId) (fun _ _ => rfl) fun b _ => ?_
      refine uses_turbo seed tag (b ++ nonce) _ fun p m => ?_
      rw [turboVec_const]
      cases hx : turboVec (Fk (P.idpf.currentField level)) p fuel ⟨m, 0⟩ (3 * level) with
      | error e => rfl
      | ok x =>
        obtain ⟨v, m', pos⟩ := x
        obtain rfl : m' = m := turboVec_pos _ p fuel m 0 _ hx
        simp only [Except.ok_bind']
        rw [turboVec_const]
    · unfold Poplar1.corrShares Poplar1.corrXof
      simp only [if_pos h, bind_assoc, pure_bind]
      rfl
  · refine Uses.congr (f := fun p => Poplar1.dst USAGE_CORR_LEAF ctx >>= fun tag => byte aggId >>= fun b =>
        turboInit p seed tag (b ++ nonce) >>= fun st =>
        turboVec (Fk (P.idpf.currentField level)) p fuel st 3 >>= fun y => .ok y.1) ?_ fun p _ => ?_
    · refine Uses.bindConst (Poplar1.dst USAGE_CORR_LEAF ctx) (fun _ _ => rfl) fun tag _ => ?_
      refine Uses.bindConst (byte aggId) (fun _ _ => rfl) fun b _ => ?_
      refine uses_turbo seed tag (b ++ nonce) _ fun p m => ?_
      rw [turboVec_const]
    · unfold Poplar1.corrShares Poplar1.corrXof
      simp only [if_neg h, bind_assoc]
      rfl

theorem uses_verifyRand (vk ctx nonce : Bytes) (level n : ℕ) :
    Uses (sameFixed prims) 1 fun p => P.verifyRand p fuel vk ctx nonce level n := by
  refine Uses.congr (f := fun p => Poplar1.dst USAGE_VERIFY_RAND ctx >>= fun tag => toBeBytes level 2 >>= fun lv =>
    turboInit p vk tag (nonce ++ lv) >>= fun st => turboVec (Fk (P.idpf.currentField level)) p fuel st n >>= fun y =>
      .ok y.1) ?_ fun p _ => rfl
  refine Uses.bindConst (Poplar1.dst USAGE_VERIFY_RAND ctx) (fun _ _ => rfl) fun tag _ => ?_
  refine Uses.bindConst (toBeBytes level 2) (fun _ _ => rfl) fun lv _ => ?_
  refine uses_turbo vk tag (nonce ++ lv) _ fun p m => ?_
  rw [turboVec_const]

theorem uses_poplarInit (vk ctx : Bytes) (aggId : ℕ) (aggParam : Poplar1AggParam) (nonce : Bytes)
    (pub : List CorrectionWord) (share : Poplar1InputShare) :
    Uses (sameFixed prims) (aggParam.2.length * (P.idpf.bits * (2 * fuel + 9)) + 2) fun p =>
      P.verifyInit p fuel vk ctx aggId aggParam nonce pub share := by
  unfold Poplar1.verifyInit
  obtain ⟨level, prefixes⟩ := aggParam
  dsimp only
  refine Uses.bind (c := prefixes.length * (P.idpf.bits * (2 * fuel + 9))) (d := 2)
    (uses_eval P.idpf aggId pub share.key level prefixes ctx nonce) fun value => ?_
  refine Uses.bind (c := 1) (d := 1) (uses_corrShares P ctx aggId level nonce share.corrSeed) fun corr => ?_
  split
  · split
    · refine (Uses.bind (c := 1) (d := 0) (uses_verifyRand P vk ctx nonce level prefixes.length) fun rand => ?_).mono le_rfl
      exact Uses.const _
    · exact Uses.const _
  · exact Uses.const _

theorem poplar_static : Static (fun p => P.vdaf p fuel) prims where
  rounds _ := (rfl : (2 : ℕ) = 2)
  isValid _ := (rfl : Poplar1.isValid = Poplar1.isValid)
  aggUpdate _ := (rfl : Poplar1.aggUpdate = Poplar1.aggUpdate)
  decodeAggParam _ := (rfl : Poplar1.decodeAggParam = Poplar1.decodeAggParam)
  decodePublicShare _ := (rfl : P.decodePublicShare = P.decodePublicShare)
  decodeInputShare p := by
    show P.decodeInputShare p fuel = P.decodeInputShare prims fuel
    funext x y
    unfold Poplar1.decodeInputShare Poplar1.xof
    dsimp only [XofTurboShake128]
  encodeVerifierShare _ := (rfl : Poplar1.encodeVerifierShare = Poplar1.encodeVerifierShare)
  decodeVerifierShare _ := (rfl : P.decodeVerifierShare = P.decodeVerifierShare)
  encodeVerifierMessage _ := (rfl : Poplar1.encodeVerifierMessage = Poplar1.encodeVerifierMessage)
  decodeVerifierMessage _ := (rfl : P.decodeVerifierMessage = P.decodeVerifierMessage)

theorem poplar_feasible {m : ℕ} (isLeader : Bool) (vk ctx : Bytes) {σ : OpenStrategy FieldVec} (hσ : OpenAskAtMost m σ)
    (views : List (Bytes × Bytes)) : Feasible (fun p => P.vdaf p fuel) (sameFixed prims)
      (m * (P.idpf.bits * (2 * fuel + 9)) + 2) isLeader vk ctx (σ views) := by
  have hM := fun (ctx : Bytes) (a : Poplar1AggParam) shares => Uses.const (A := sameFixed prims) (c := 0)
    (Poplar1.sharesToMessage ctx a shares)
  have hN := fun (ctx : Bytes) st (msg : Option FieldVec) => Uses.const (A := sameFixed prims) (c := 0)
    (Poplar1.verifyNext ctx st msg)
  refine fun s j aggParam inbound => ⟨fun h => ?_, fun _ => ?_⟩
  · exact uses_start (cI := m * (P.idpf.bits * (2 * fuel + 9)) + 2) (cM := 0) (p0 := prims) (poplar_static P) hM hN
      s.submitted s.own j aggParam inbound fun a ha j nonce pub share =>
        (uses_poplarInit P vk ctx j a nonce pub share).mono
          (Nat.add_le_add_right (Nat.mul_le_mul_right _ (hσ views s.replies _ aggParam inbound a (.inr h) ha)) 2)
  · exact (uses_deliver (cM := 0) (p0 := prims) (poplar_static P) hM hN s.submitted s.own j aggParam inbound).mono (by omega)

end

/-! ### The number of prefixes -/

theorem strategyOf_ask {m : ℕ} {Meas AggParam PubShare InShare OutShare AggRes VState VShare VMsg : Type}
    {V : Prims → VdafImpl Meas AggParam PubShare InShare OutShare FieldVec AggRes VState VShare VMsg} {p0 : Prims}
    {A : Set Prims} {c : ℕ} {isLeader : Bool} {vk ctx : Bytes} {σ : OpenStrategy FieldVec} (hσ : OpenAskAtMost m σ) :
    PeerAskAtMost m fun views => simulate V p0 A c isLeader vk ctx (σ views) := by
  intro views rs k aggParam inbound a h ha
  change nextMove V A c isLeader vk ctx (σ views) _ _ = _ at h
  unfold nextMove at h
  split at h
  · next s _ _ =>
    have h' : σ views s.replies = .honest (.start k aggParam inbound) := by
      unfold firstFor at h
      split at h
      · next move hm => rw [hm, h]
      · cases h
      · cases h
    exact hσ views s.replies k aggParam inbound a (.inl h') ha
  · unfold ask at h
    split at h <;> cases h
  · cases h

end Vdaf.Open
