import Verif.Proofs.FuelXof
import Verif.Proofs.FuelFlp
import Verif.Model.Prio3
import Verif.Model.PingPong

/-!
# Termination: drivers, ping-pong and Prio3
-/

namespace Vdaf

/-- The XOF with another bound. -/
def Xof.withFuel (X : Xof) (f : ℕ) : Xof := { X with fuel := f }

theorem nextVecLoop_withFuel (F : Type) [PyField F] (X : Xof) (g m n f : ℕ) (st : X.State) (v : List F) :
    (X.withFuel g).nextVecLoop F m n f st v = X.nextVecLoop F m n f st v := by
  induction f generalizing st v with
  | zero => rfl
  | succ f ih =>
    simp only [Xof.nextVecLoop]
    split
    · refine bind_congr fun r => ?_
      obtain ⟨b, st'⟩ := r
      dsimp only
      split
      · exact bind_congr fun y => ih _ _
      · exact ih _ _
    · rfl

theorem nextVec_withFuel (F : Type) [PyField F] (X : Xof) (g f n : ℕ) (st : X.State) :
    (X.withFuel g).nextVec F f st n = X.nextVec F f st n := by
  unfold Xof.nextVec
  exact bind_congr fun m => nextVecLoop_withFuel F X g (m - 1) n f st []

theorem term_expand {F : Type} [PyField F] {X : Xof} (hX : X.NoFuel) (hF : Spec.SamplingEnds X F)
    (s d b : Bytes) (n : ℕ) : Term fun f => (X.withFuel f).expandIntoVec F s d b n := by
  have : (fun f => (X.withFuel f).expandIntoVec F s d b n) = fun f => X.init s d b >>= fun st =>
      X.nextVec F f st n >>= fun r => pure r.1 := by
    funext f
    unfold Xof.expandIntoVec
    refine bind_congr (x := X.init s d b) fun st => ?_
    exact congrArg (fun r => r >>= fun r : List F × X.State => (pure r.1 : Res (List F)))
      (nextVec_withFuel F X f f n st)
  rw [this]
  exact Term.bind (Term.const (hX.init s d b)) fun st => Term.bind (term_nextVec hX hF st n) fun _ =>
    Term.const (NF.pure _)

theorem term_derive {X : Xof} (hX : X.NoFuel) (s d b : Bytes) :
    Term fun f => (X.withFuel f).deriveSeed s d b := by
  refine Term.const (r := X.deriveSeed s d b) ?_
  unfold Xof.deriveSeed
  exact NF.bind' (hX.init s d b) fun st => NF.bind' (hX.next st _) fun _ => by nf

/-! ### Drivers -/

section
variable {Meas AggParam PubShare InShare OutShare AggShare AggRes VState VShare VMsg : Type}
variable {V : ℕ → VdafImpl Meas AggParam PubShare InShare OutShare AggShare AggRes VState VShare VMsg}

theorem term_verifyNextTuple (hV : Spec.AllTerminate V) (ctx : Bytes) (st : VState) (msg : VMsg) :
    Term fun f => (V f).verifyNextTuple ctx st msg := by
  unfold VdafImpl.verifyNextTuple
  refine Term.bind (hV.verifyNext ctx st msg) fun a => ?_
  cases a
  all_goals exact Term.const (by nf)

theorem term_verifyNextOut (hV : Spec.AllTerminate V) (ctx : Bytes) (st : VState) (msg : VMsg) :
    Term fun f => (V f).verifyNextOut ctx st msg := by
  unfold VdafImpl.verifyNextOut
  refine Term.bind (hV.verifyNext ctx st msg) fun a => ?_
  cases a
  all_goals exact Term.const (by nf)

theorem term_runRound (hV : Spec.AllTerminate V) (hs : ∀ f, (V f).shares = (V 0).shares) (ctx : Bytes)
    (a : AggParam) (st : List VState × List VShare) : Term fun f => (V f).runRound ctx a st := by
  unfold VdafImpl.runRound
  simp only [hs]
  refine Term.bind (hV.sharesToMessage ctx a _) fun msg => ?_
  refine Term.bind (Term.mapRes fun j => Term.bind (Term.const (NF.getI _ _)) fun s =>
    term_verifyNextTuple hV ctx s msg) ?_
  tm

theorem term_runVerify (hV : Spec.AllTerminate V) (hs : ∀ f, (V f).shares = (V 0).shares)
    (hr : ∀ f, (V f).rounds = (V 0).rounds) (key : Bytes) (a : AggParam) (ctx : Bytes) (m : Meas)
    (nonce rand : Bytes) : Term fun f => (V f).runVerify key a ctx m nonce rand := by
  unfold VdafImpl.runVerify
  simp only [hs, hr]
  refine Term.bind (hV.shard ctx m nonce rand) ?_
  rintro ⟨p, is⟩
  refine Term.bind (Term.mapRes fun j => Term.bind (Term.const (NF.getI _ _)) fun s =>
    hV.verifyInit key ctx j a nonce p s) fun outs => ?_
  refine Term.bind (Term.forFold fun st _ => term_runRound hV hs ctx a st) ?_
  rintro ⟨st, sh⟩
  refine Term.bind (hV.sharesToMessage ctx a sh) ?_
  tm

theorem term_runReport (hV : Spec.AllTerminate V) (hs : ∀ f, (V f).shares = (V 0).shares)
    (hr : ∀ f, (V f).rounds = (V 0).rounds) (key : Bytes) (a : AggParam) (ctx : Bytes)
    (as : List AggShare) (m : Meas) (nonce rand : Bytes) :
    Term fun f => (V f).runReport key a ctx as m nonce rand := by
  unfold VdafImpl.runReport
  simp only [hs]
  refine Term.bind (term_runVerify hV hs hr key a ctx m nonce rand) ?_
  rintro ⟨st, msg⟩
  refine Term.forFold fun as j => Term.bind (Term.const (NF.getI _ _)) fun s =>
    Term.bind (term_verifyNextOut hV ctx s msg) fun o => Term.bind (Term.const (NF.getI _ _)) fun x =>
    Term.bind (hV.aggUpdate a x o) fun x => Term.const (NF.setI _ _ _)

theorem term_runVdaf (hV : Spec.AllTerminate V) (hs : ∀ f, (V f).shares = (V 0).shares)
    (hr : ∀ f, (V f).rounds = (V 0).rounds) (hk : ∀ f, (V f).verifyKeySize = (V 0).verifyKeySize)
    (key : Bytes) (a : AggParam) (ctx : Bytes) (ms : List (Meas × Bytes × Bytes)) :
    Term fun f => runVdaf (V f) key a ctx ms := by
  unfold runVdaf
  simp only [hs, hk]
  refine Term.bind (Term.const (NF.raiseIf _ _)) fun _ => ?_
  refine Term.bind (Term.mapRes fun _ => hV.aggInit a) fun as => ?_
  refine Term.bind (Term.forFold fun as x => ?_) fun as => hV.unshard a as _
  obtain ⟨m, nonce, rand⟩ := x
  exact term_runReport hV hs hr key a ctx as m nonce rand

/-! ### Ping-pong -/

theorem NF.pingPongEncode (t : ℕ) (is : List Bytes) : NF (PingPong.encode t is) := by
  unfold PingPong.encode; nf
theorem NF.pingPongDecode (b : Bytes) : NF (PingPong.decode b) := by
  unfold PingPong.decode PingPong.decodeItem PingPong.numCounts; nf
theorem NF.pingPongUnpack (o : Next VState VShare OutShare) : NF (PingPong.unpack o) := by
  unfold PingPong.unpack; nf

theorem Term.catchAll {r : ℕ → Res (PingPongState VState VShare OutShare)} (h : Term r) :
    Term fun f => PingPong.catchAll (r f) := by
  obtain ⟨v, hv, ⟨n, hn⟩, hm⟩ := h
  refine ⟨PingPong.catchAll v, ?_, ⟨n, fun f hf => by show PingPong.catchAll (r f) = _; rw [hn f hf]⟩, fun f => ?_⟩
  · unfold PingPong.catchAll
    split
    · simp
    · exact absurd rfl hv
    · simp
  · show PingPong.catchAll (r f) = _ ∨ PingPong.catchAll (r f) = _
    rcases hm f with h | h <;> rw [h]
    · exact .inl rfl
    · exact .inr rfl

theorem term_transition (hV : Spec.AllTerminate V) (hr : ∀ f, (V f).rounds = (V 0).rounds) (ctx : Bytes)
    (a : AggParam) (vs : List VShare) (st : VState) (r : ℕ) :
    Term fun f => PingPong.transition (V f) ctx a vs st r := by
  unfold PingPong.transition
  simp only [hr]
  refine Term.bind (hV.sharesToMessage ctx a vs) fun msg => Term.bind (hV.encodeVerifierMessage msg) fun em =>
    Term.bind (hV.verifyNext ctx st msg) fun out => Term.ite ?_ ?_
  · exact Term.const (NF.bind' (NF.pingPongEncode _ _) fun _ => by nf)
  · refine Term.bind (Term.const (NF.pingPongUnpack _)) ?_
    rintro ⟨st, sh⟩
    exact Term.bind (hV.encodeVerifierShare sh) fun e =>
      Term.const (NF.bind' (NF.pingPongEncode _ _) fun _ => by nf)

theorem term_leaderInit (hV : Spec.AllTerminate V) (key ctx a nonce p s : Bytes) :
    Term fun f => PingPong.leaderInit (V f) key ctx a nonce p s := by
  unfold PingPong.leaderInit
  refine Term.catchAll ?_
  refine Term.bind (hV.decodeAggParam a) fun a => Term.bind (hV.decodePublicShare p) fun p =>
    Term.bind (hV.decodeInputShare 0 s) fun s => Term.bind (hV.verifyInit key ctx 0 a nonce p s) ?_
  rintro ⟨st, sh⟩
  exact Term.bind (hV.encodeVerifierShare sh) fun e =>
    Term.const (NF.bind' (NF.pingPongEncode _ _) fun _ => by nf)

theorem term_helperInit (hV : Spec.AllTerminate V) (hr : ∀ f, (V f).rounds = (V 0).rounds)
    (key ctx a nonce p s i : Bytes) :
    Term fun f => PingPong.helperInit (V f) key ctx a nonce p s i := by
  unfold PingPong.helperInit
  refine Term.catchAll ?_
  refine Term.bind (hV.decodeAggParam a) fun a' => Term.bind (hV.decodePublicShare p) fun p =>
    Term.bind (hV.decodeInputShare 1 s) fun s => Term.bind (hV.verifyInit key ctx 1 a' nonce p s) ?_
  rintro ⟨st, sh⟩
  refine Term.bind (Term.const (NF.pingPongDecode _)) ?_
  rintro ⟨t, is⟩
  refine Term.ite (Term.const (NF.pure _)) ?_
  exact Term.bind (Term.const (NF.getI _ _)) fun e => Term.bind (hV.decodeVerifierShare st e) fun peer =>
    Term.bind (hV.decodeAggParam a) fun a' => term_transition hV hr ctx a' _ st 0

theorem term_continued (hV : Spec.AllTerminate V) (hr : ∀ f, (V f).rounds = (V 0).rounds)
    (l : Bool) (ctx a : Bytes) (st : VState) (r : ℕ) (i : Bytes) :
    Term fun f => PingPong.continued (V f) l ctx a st r i := by
  unfold PingPong.continued
  simp only [hr]
  refine Term.catchAll (Term.bind (Term.const (NF.pingPongDecode _)) ?_)
  rintro ⟨t, is⟩
  refine Term.ite (Term.const (NF.pure _)) ?_
  refine Term.bind (Term.const (NF.getI _ _)) fun e => Term.bind (hV.decodeVerifierMessage st e) fun msg =>
    Term.bind (hV.verifyNext ctx st msg) fun out => Term.ite ?_ (Term.ite (Term.const (NF.pure _))
      (Term.const (NF.pure _)))
  refine Term.bind (Term.const (NF.pingPongUnpack _)) ?_
  rintro ⟨st, sh⟩
  exact Term.bind (Term.const (NF.getI _ _)) fun e => Term.bind (hV.decodeVerifierShare st e) fun peer =>
    Term.bind (hV.decodeAggParam a) fun a' => term_transition hV hr ctx a' _ st _

end

/-! ### Prio3 -/

section
variable {F : Type} [NttField F] {Meas Agg : Type} {X : Xof}

/-- The instance with the XOF whose loops are cut off after `f` iterations. -/
def prio3At (X : Xof) (id shares proofs proofLen : ℕ) (flp : Valid F Meas Agg) (f : ℕ) :
    Prio3 (X.withFuel f) F Meas Agg := ⟨id, shares, proofs, flp, proofLen⟩

section
variable (id sh pr pl f : ℕ) (flp : Valid F Meas Agg)
omit [NttField F]
theorem prio3At_id : (prio3At X id sh pr pl flp f).id = id := rfl
theorem prio3At_shares : (prio3At X id sh pr pl flp f).shares = sh := rfl
theorem prio3At_proofs : (prio3At X id sh pr pl flp f).proofs = pr := rfl
theorem prio3At_proofLen : (prio3At X id sh pr pl flp f).proofLen = pl := rfl
theorem prio3At_flp : (prio3At X id sh pr pl flp f).flp = flp := rfl
theorem withFuel_seedSize : (X.withFuel f).seedSize = X.seedSize := rfl
end

variable (hX : X.NoFuel) (hF : Spec.SamplingEnds X F) {flp : Valid F Meas Agg} (hV : flp.NoFuel)
  (id shares proofs proofLen : ℕ)

/-- expose the attributes -/
macro "p3s" : tactic => `(tactic| simp only [prio3At_id, prio3At_shares, prio3At_proofs, prio3At_proofLen,
  prio3At_flp, withFuel_seedSize])

local notation "P" => prio3At X id shares proofs proofLen flp

section
include hX hF

theorem term_measShare (ctx : Bytes) (j : ℕ) (s : Bytes) : Term fun f => (P f).helperMeasShare ctx j s := by
  unfold Prio3.helperMeasShare
  p3s
  exact Term.bind (Term.const (NF.domainSeparationTag _ _ _)) fun d => Term.bind (Term.const (NF.byte _)) fun b =>
    term_expand hX hF _ _ _ _

theorem term_proofsShare (ctx : Bytes) (j : ℕ) (s : Bytes) :
    Term fun f => (P f).helperProofsShare ctx j s := by
  unfold Prio3.helperProofsShare
  p3s
  exact Term.bind (Term.const (NF.domainSeparationTag _ _ _)) fun d => Term.bind (Term.const (NF.byte _)) fun b =>
    Term.bind (Term.const (NF.byte _)) fun b => term_expand hX hF _ _ _ _

theorem term_proveRands (ctx s : Bytes) : Term fun f => (P f).proveRands ctx s := by
  unfold Prio3.proveRands
  p3s
  exact Term.bind (Term.const (NF.domainSeparationTag _ _ _)) fun d => Term.bind (Term.const (NF.byte _)) fun b =>
    term_expand hX hF _ _ _ _

theorem term_queryRands (key ctx nonce : Bytes) : Term fun f => (P f).queryRands key ctx nonce := by
  unfold Prio3.queryRands
  p3s
  exact Term.bind (Term.const (NF.domainSeparationTag _ _ _)) fun d => Term.bind (Term.const (NF.byte _)) fun b =>
    term_expand hX hF _ _ _ _

theorem term_jointRands (ctx s : Bytes) : Term fun f => (P f).jointRands ctx s := by
  unfold Prio3.jointRands
  p3s
  exact Term.bind (Term.const (NF.domainSeparationTag _ _ _)) fun d => Term.bind (Term.const (NF.byte _)) fun b =>
    term_expand hX hF _ _ _ _

end

section
include hX

theorem term_jointRandPart (ctx : Bytes) (j : ℕ) (b : Bytes) (m : List F) (nonce : Bytes) :
    Term fun f => (P f).jointRandPart ctx j b m nonce := by
  unfold Prio3.jointRandPart
  p3s
  exact Term.bind (Term.const (NF.domainSeparationTag _ _ _)) fun d => Term.bind (Term.const (NF.byte _)) fun b =>
    Term.bind (Term.const (NF.encodeVec _)) fun b => term_derive hX _ _ _

omit [NttField F] in
theorem term_jointRandSeed (ctx : Bytes) (ps : List Bytes) : Term fun f => (P f).jointRandSeed ctx ps := by
  unfold Prio3.jointRandSeed
  p3s
  exact Term.bind (Term.const (NF.domainSeparationTag _ _ _)) fun d => term_derive hX _ _ _

end

/-- steps for Prio3 -/
macro "p3" : tactic => `(tactic| repeat' (first
  | with_reducible exact term_measShare (by assumption) (by assumption) _ _ _ _ _ _ _
  | with_reducible exact term_proofsShare (by assumption) (by assumption) _ _ _ _ _ _ _
  | with_reducible exact term_proveRands (by assumption) (by assumption) _ _ _ _ _ _
  | with_reducible exact term_queryRands (by assumption) (by assumption) _ _ _ _ _ _ _
  | with_reducible exact term_jointRands (by assumption) (by assumption) _ _ _ _ _ _
  | with_reducible exact term_jointRandPart (by assumption) _ _ _ _ _ _ _ _ _
  | with_reducible exact term_jointRandSeed (by assumption) _ _ _ _ _ _
  | with_reducible exact Term.const (NF.prove (by assumption) _ _ _)
  | with_reducible exact Term.const (NF.query (by assumption) _ _ _ _ _)
  | with_reducible exact Term.const (NF.decide (by assumption) _)
  | tm_step
  | fail))

include hX hF in
theorem term_subHelperProofs (ctx : Bytes) (hs : List Bytes) (v : List F) :
    Term fun f => (P f).subHelperProofs ctx hs v := by
  unfold Prio3.subHelperProofs
  p3s
  p3

include hX hF hV in
theorem term_shardWithout (ctx : Bytes) (m : List F) (ss : List Bytes) :
    Term fun f => (P f).shardWithoutJointRand ctx m ss := by
  unfold Prio3.shardWithoutJointRand
  p3s
  repeat' (first | with_reducible exact term_subHelperProofs hX hF _ _ _ _ _ _ _ | p3)

include hX hF hV in
theorem term_shardWith (ctx : Bytes) (m : List F) (nonce : Bytes) (ss : List Bytes) :
    Term fun f => (P f).shardWithJointRand ctx m nonce ss := by
  unfold Prio3.shardWithJointRand
  p3s
  repeat' (first | with_reducible exact term_subHelperProofs hX hF _ _ _ _ _ _ _ | p3)

include hX hF hV in
theorem term_shard (ctx : Bytes) (m : Meas) (nonce rand : Bytes) :
    Term fun f => (P f).shard ctx m nonce rand := by
  have h1 := fun m => term_shardWith hX hF hV id shares proofs proofLen ctx m nonce
  have h2 := term_shardWithout hX hF hV id shares proofs proofLen ctx
  unfold Prio3.shard Prio3.randSize Prio3.numSeeds
  p3s
  refine Term.bind (Term.const (NF.raiseIf _ _)) fun _ => Term.bind (Term.const
    (r := raiseIf (rand.length ≠ (if flp.jointRandLen > 0 then shares + shares else shares) * X.seedSize) _)
    (NF.raiseIf _ _)) fun _ => Term.bind (Term.const (hV.encode m)) fun m => Term.ite (h1 m (chunks rand (if flp.jointRandLen > 0 then
      shares + shares else shares) X.seedSize)) (h2 m (chunks rand (if flp.jointRandLen > 0 then
      shares + shares else shares) X.seedSize))

include hX hF in
theorem term_expandInputShare (ctx : Bytes) (j : ℕ) (s : Prio3InputShare F) :
    Term fun f => (P f).expandInputShare ctx j s := by
  unfold Prio3.expandInputShare
  refine Term.ite ?_ ?_
  · cases s
    · exact Term.const (by nf)
    · dsimp only; p3
  · cases s <;> exact Term.const (by nf)

include hX hF in
theorem term_verifyJointRand (ctx : Bytes) (j : ℕ) (nonce : Bytes) (ps : Option (List Bytes)) (m : List F)
    (b : Option Bytes) : Term fun f => (P f).verifyJointRand ctx j nonce ps m b := by
  unfold Prio3.verifyJointRand
  p3s
  refine Term.ite ?_ (Term.const (NF.ok _))
  cases b <;> dsimp only
  · exact Term.const (by nf)
  · cases ps <;> dsimp only
    · exact Term.const (by nf)
    · p3

include hV in
theorem term_queryLoop (m p q j : List F) : Term fun f => (P f).queryLoop m p q j := by
  unfold Prio3.queryLoop Prio3.nextJointRand
  p3s
  p3

include hX hF hV in
theorem term_verifyInit (key ctx : Bytes) (j : ℕ) (nonce : Bytes) (p : Option (List Bytes))
    (s : Prio3InputShare F) : Term fun f => (P f).verifyInit key ctx j () nonce p s := by
  unfold Prio3.verifyInit
  refine Term.bind (term_expandInputShare hX hF _ _ _ _ _ _ _) ?_
  rintro ⟨m, pf, b⟩
  refine Term.bind (Term.const (hV.truncate m)) fun o => ?_
  refine Term.bind (term_verifyJointRand hX hF _ _ _ _ _ _ _ _ _ _) ?_
  rintro ⟨jr, c, part⟩
  exact Term.bind (term_queryRands hX hF _ _ _ _ _ _ _) fun qr =>
    Term.bind (term_queryLoop hV _ _ _ _ _ _ _ _) fun v => Term.const (NF.pure _)

include hX hV in
theorem term_sharesToMessage (ctx : Bytes) (vs : List (List F × Option Bytes)) :
    Term fun f => (P f).sharesToMessage ctx () vs := by
  unfold Prio3.sharesToMessage Prio3.appendPart Prio3.decideLoop
  p3s
  refine Term.bind (Term.forFold fun a b => Term.bind (Term.const (NF.vecAdd _ _)) fun v => Term.bind
    (Term.ite ?_ (Term.const (NF.ok _))) fun ps => Term.const (NF.pure _)) ?_
  · cases b.2 <;> exact Term.const (by nf)
  rintro ⟨v, ps⟩
  p3

include hX hF hV in
theorem prio3_terminates : Spec.AllTerminate fun f => (P f).vdaf where
  shard := term_shard hX hF hV id shares proofs proofLen
  isValid _ _ := Term.const (NF.ok _)
  verifyInit key ctx j _ := term_verifyInit hX hF hV id shares proofs proofLen key ctx j
  sharesToMessage ctx _ := term_sharesToMessage hX hV id shares proofs proofLen ctx
  verifyNext c st m := Term.const (r := Prio3.verifyNext c st m) (by unfold Prio3.verifyNext; nf)
  aggInit _ := Term.const (r := (P 0).aggInit ()) (NF.ok _)
  aggUpdate _ _ _ := Term.const (NF.vecAdd _ _)
  merge _ as := Term.const (r := (P 0).merge () as) (by unfold Prio3.merge Prio3.aggInit; nf)
  unshard _ as n := Term.const (r := (P 0).unshard () as n)
    (by unfold Prio3.unshard Prio3.merge Prio3.aggInit
        exact NF.bind' (by nf) fun a => hV.decode _ _)
  encodeAggParam _ := Term.const (NF.ok _)
  decodeAggParam _ := Term.const (NF.raiseIf _ _)
  encodePublicShare p := Term.const (r := Prio3.encodePublicShare p) (by unfold Prio3.encodePublicShare; nf)
  decodePublicShare p := Term.const (r := (P 0).decodePublicShare p) (by unfold Prio3.decodePublicShare; nf)
  encodeInputShare p := Term.const (r := (P 0).encodeInputShare p) (by unfold Prio3.encodeInputShare; nf)
  decodeInputShare j p := Term.const (r := (P 0).decodeInputShare j p)
    (by unfold Prio3.decodeInputShare Prio3.decodeBlind; nf)
  encodeVerifierShare p := Term.const (r := (P 0).encodeVerifierShare p) (by unfold Prio3.encodeVerifierShare; nf)
  decodeVerifierShare st p := Term.const (r := (P 0).decodeVerifierShare st p)
    (by unfold Prio3.decodeVerifierShare Prio3.decodeBlind; nf)
  encodeVerifierMessage _ := Term.const (NF.ok _)
  decodeVerifierMessage st p := Term.const (r := Prio3.decodeVerifierMessage st p) (by unfold Prio3.decodeVerifierMessage; nf)

end
end Vdaf
