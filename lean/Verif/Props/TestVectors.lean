import Verif.Proofs.TestVectorsInst
import Verif.Proofs.TestVectorsOps
import Verif.Props.Prio3
import Verif.Props.Poplar1Main
import Verif.Props.PingPong

/-!
# Property C58: the generator and the checker of the test vectors

Specification vocabulary (`Verif/Spec/TestVectors.lean`):

* `Spec.operations rounds shares n`: the operations of a complete test vector with `n` reports;
* `Spec.WellOrdered shares ops`: every operation comes after those that produce the states it consumes;
* `Spec.Inputs V tv key a ctx reports`: the inputs that a test vector lists;
* `Spec.VectorListed x y`: everything that the test vector `x` says about the messages is also said by `y`;
* `Spec.OperationHolds V C tv op`: what an operation of the test vector, a success or a failure, claims about the VDAF;
* `Spec.RoundTrips`, `Spec.Encodes`: the messages of honest executions survive encoding and decoding, and can be encoded.
-/

namespace Vdaf
open TestVectors

/-- C58: `bytes.fromhex` inverts `bytes.hex`. -/
theorem C58_hex (b : Bytes) : fromHex (hex b) = .ok b := fromHex_hex b

example : hex [0, 15, 0xa7, 255] = "000fa7ff".toList ∧ fromHex "00 0fA7\nff".toList = .ok [0, 15, 0xa7, 255] ∧
    (∃ e, fromHex "0 0fa7ff".toList = .error e) ∧ ∃ e, fromHex "00g0".toList = .error e :=
  ⟨by decide +kernel, by decide +kernel, ⟨_, rfl⟩, ⟨_, rfl⟩⟩

section
variable {Meas AggParam PubShare InShare OutShare AggShare AggRes VState VShare VMsg : Type} [DecidableEq AggRes]
variable {V : VdafImpl Meas AggParam PubShare InShare OutShare AggShare AggRes VState VShare VMsg}
variable {C : ShareCodec AggParam OutShare AggShare}
variable {key ctx : Bytes} {a : AggParam} {reports : List (Meas × Bytes × Bytes)} {tv : TestVec Meas AggRes}

omit [DecidableEq AggRes] in
/-- C58: a generated test vector lists the inputs it was generated from, and its operations are those of a complete
test vector. -/
theorem C58_operations (hr : 0 < V.rounds) (hap : ∀ b, V.encodeAggParam a = .ok b → V.decodeAggParam b = .ok a)
    (hgen : genTestVecWith V C key a ctx reports = .ok tv) :
    Spec.Inputs V tv key a ctx reports ∧ tv.operations = Spec.operations V.rounds V.shares reports.length ∧
      tv.aggShares.length = V.shares :=
  ⟨(gen_refl hr hap hgen).2.1, gen_inv hr hgen⟩

/-- C58: the checker accepts every generated test vector. -/
theorem C58_accepts (hRT : Spec.RoundTrips V C key a ctx reports) (h0 : 0 < V.shares) (hr : 0 < V.rounds)
    (hgen : genTestVecWith V C key a ctx reports = .ok tv) : checkTestVector V C tv = .ok () := by
  obtain ⟨h1, h2, h3⟩ := gen_refl hr (fun b hb => (hRT.aggParam b).1 hb) hgen
  exact check_complete hRT h0 hr h2 (gen_inv hr hgen).1 (fun rep hrep => h3 rep hrep _) hgen h1

/-- C58: the checker accepts a complete test vector exactly if the generator, on the inputs that the vector lists, returns
a vector all of whose messages and result are listed in it (and the verifier shares are hexadecimal strings). -/
theorem C58_check (hRT : Spec.RoundTrips V C key a ctx reports) (h0 : 0 < V.shares) (hr : 0 < V.rounds)
    (hin : Spec.Inputs V tv key a ctx reports)
    (hops : tv.operations = Spec.operations V.rounds V.shares reports.length) (hagg : tv.aggShares.length = V.shares)
    (hnonce : ∀ R ∈ reports, R.2.1.length = V.nonceSize) :
    checkTestVector V C tv = .ok () ↔
      (∀ rep ∈ tv.reports, ∀ k < V.rounds, ∀ row, rep.verifierShares[k]? = some row →
        ∃ bs, mapRes fromHex row = .ok bs) ∧
      ∃ tv', genTestVecWith V C key a ctx reports = .ok tv' ∧ Spec.VectorListed tv' tv :=
  ⟨fun h => check_sound hRT h0 hr hin hops hagg hnonce h,
    fun ⟨h1, _, h2, h3⟩ => check_complete hRT h0 hr hin hops h1 h2 h3⟩

omit [DecidableEq AggRes] in
/-- C58: the result in a generated test vector is that of `run_vdaf` on the same inputs. -/
theorem C58_result (hr : 0 < V.rounds) (hk : key.length = V.verifyKeySize)
    (hgen : genTestVecWith V C key a ctx reports = .ok tv) :
    ∃ R, runVdaf V key a ctx reports = .ok R ∧ tv.aggResult = some R := by
  obtain ⟨R, h1, h2⟩ := gen_separately hr hgen
  exact ⟨R, (runVdaf_iff V).2 ⟨hk, h2⟩, h1⟩

/-- C58: if the checker accepts a complete test vector, then its result is that of `run_vdaf` on the inputs it lists. -/
theorem C58_check_result (hRT : Spec.RoundTrips V C key a ctx reports) (h0 : 0 < V.shares) (hr : 0 < V.rounds)
    (hin : Spec.Inputs V tv key a ctx reports)
    (hops : tv.operations = Spec.operations V.rounds V.shares reports.length) (hagg : tv.aggShares.length = V.shares)
    (hnonce : ∀ R ∈ reports, R.2.1.length = V.nonceSize) (hk : key.length = V.verifyKeySize)
    (h : checkTestVector V C tv = .ok ()) :
    ∃ R, runVdaf V key a ctx reports = .ok R ∧ tv.aggResult = some R := by
  obtain ⟨-, tv', h1, h2⟩ := check_sound hRT h0 hr hin hops hagg hnonce h
  rw [← h2.aggResult]
  exact C58_result hr hk h1

omit [DecidableEq AggRes] in
/-- C58: whenever `run_vdaf` returns a result and the messages can be encoded, a test vector with this result is
generated. -/
theorem C58_generates (hE : Spec.Encodes V C key a ctx reports) (hr : 0 < V.rounds)
    (hnonce : ∀ R ∈ reports, R.2.1.length = V.nonceSize) {R : AggRes} (h : runVdaf V key a ctx reports = .ok R) :
    ∃ tv, genTestVecWith V C key a ctx reports = .ok tv ∧ tv.aggResult = some R := by
  obtain ⟨hk, h'⟩ := (runVdaf_iff V).1 h
  obtain ⟨tv, h1⟩ := gen_ok hE hr hnonce h'
  obtain ⟨R', h2, h3⟩ := C58_result hr hk h1
  rw [h] at h2
  cases h2
  exact ⟨tv, h1, h3⟩

/-- C58: the operations of every accepted test vector, complete or not, positive or negative, are in an order in which
they can be executed. -/
theorem C58_order (h : checkTestVector V C tv = .ok ()) : Spec.WellOrdered V.shares tv.operations := by
  intro p op r j k hp hj hc
  unfold checkTestVector at h
  rw [Except.bind_eq_ok] at h
  obtain ⟨S', h, -⟩ := h
  rcases ordered h p op r j k hp hj hc with h | h
  · exact absurd rfl h
  · exact h

/-- C58: the checker accepts a test vector, complete or not, positive or negative, exactly if the claims of all its
operations hold and they are in an order in which they can be executed. -/
theorem C58_check_operations :
    checkTestVector V C tv = .ok () ↔
      Spec.WellOrdered V.shares tv.operations ∧ ∀ op ∈ tv.operations, Spec.OperationHolds V C tv op := by
  have h0 : Inv V tv (fun _ _ _ => none) := fun _ _ _ _ h => by cases h
  constructor
  · intro h
    refine ⟨C58_order h, ?_⟩
    unfold checkTestVector at h
    rw [Except.bind_eq_ok] at h
    obtain ⟨S', h, -⟩ := h
    exact ops_sound h0 h
  · rintro ⟨h1, h2⟩
    obtain ⟨S', h⟩ := ops_complete h0 h2 fun p op r j k hp hj hc => .inr (h1 p op r j k hp hj hc)
    unfold checkTestVector
    rw [h]
    rfl
end

/-! ## Prio3 and Poplar1 -/

section
variable {F : Type} [NttField F] {Meas Agg : Type} {prims : Prims} {fuel : ℕ}

/-- C58: the messages of Prio3 can be encoded and survive encoding and decoding. -/
theorem C58_prio3_codec {P : Prio3 (XofTurboShake128 prims fuel) F Meas Agg} {fn : Spec.Fun Meas Agg}
    (I : Spec.Instance P fn) (key ctx : Bytes) (hctx : ctx.length + 8 < 2 ^ 16) (reports : List (Meas × Bytes × Bytes))
    (hv : ∀ R ∈ reports, fn.valid R.1) :
    Spec.RoundTrips P.vdaf (Prio3.shareCodec F) key () ctx reports ∧
      Spec.Encodes P.vdaf (Prio3.shareCodec F) key () ctx reports := by
  obtain ⟨ints, of, h1, -, -, -⟩ := (Library.encFacts I.library).enc
  have hv' : ∀ R ∈ reports, ∃ meas, P.flp.encode R.1 = .ok meas ∧ meas.length = P.flp.measLen := fun R hR => by
    obtain ⟨meas, he, hl, -⟩ := h1 R.1 (hv R hR)
    exact ⟨meas, he, hl⟩
  exact ⟨Prio3.roundTrips I.wf hctx hv' key, Prio3.encodes I.wf hctx hv' key⟩

/-- C58 for Prio3: unless the sampler or the joint randomness fails (as in C23), a test vector is generated for every
batch of valid measurements; it is accepted by the checker and its result is the aggregate. -/
theorem C58_prio3 [DecidableEq Agg] {P : Prio3 (XofTurboShake128 prims fuel) F Meas Agg} {fn : Spec.Fun Meas Agg}
    (I : Spec.Instance P fn) (key ctx : Bytes) (hkey : key.length = 32) (hctx : ctx.length + 8 < 2 ^ 16)
    (batch : List (Meas × Bytes × Bytes))
    (hbatch : ∀ m ∈ batch, fn.valid m.1 ∧ m.2.1.length = 16 ∧ m.2.2.length = P.randSize) :
    (∃ tv R, genTestVecWith P.vdaf (Prio3.shareCodec F) key () ctx batch = .ok tv ∧
      checkTestVector P.vdaf (Prio3.shareCodec F) tv = .ok () ∧ tv.aggResult = some R ∧
      fn.totals R = (fn.totals (fn.agg (batch.map Prod.fst))).map (· % PyField.modulus F) ∧
      ((∀ n ∈ fn.totals (fn.agg (batch.map Prod.fst)), n < PyField.modulus F) → R = fn.agg (batch.map Prod.fst))) ∨
    ∃ e, runVdaf P.vdaf key () ctx batch = .error e ∧ Spec.HonestFailure P key ctx (batch.map fun m => m.2.1) e := by
  rcases C23_end_to_end I key ctx hkey hctx batch hbatch with ⟨R, h1, h2⟩ | h
  · left
    obtain ⟨hRT, hE⟩ := C58_prio3_codec I key ctx hctx batch fun m hm => (hbatch m hm).1
    obtain ⟨tv, h3, h4⟩ := C58_generates hE (show 0 < 1 by decide) (fun m hm => (hbatch m hm).2.1) h1
    have hs := I.wf.shares_ge
    exact ⟨tv, R, h3, C58_accepts hRT (show 0 < P.shares by omega) (show 0 < 1 by decide) h3, h4, h2⟩
  · exact .inr h

end

/-- C58: the messages of Poplar1 can be encoded and survive encoding and decoding. -/
theorem C58_poplar1_codec (prims : Prims) {fuel : ℕ} (hf : fuel < 2 ^ 120) {bits : ℕ} {P : Poplar1}
    (hP : Poplar1.init bits = .ok P) (key ctx : Bytes) (hctx : ctx.length + 8 < 2 ^ 16) {a : Poplar1AggParam}
    (ha : Spec.WellFormed a) (reports : List (List Bool × Bytes × Bytes)) (hR : ∀ R ∈ reports, R.1.length = bits) :
    Spec.RoundTrips (P.vdaf prims fuel) P.shareCodec key a ctx reports ∧
      Spec.Encodes (P.vdaf prims fuel) P.shareCodec key a ctx reports := by
  obtain ⟨rfl, hb⟩ := Poplar1.init_ok hP
  exact ⟨Poplar1.roundTrips hf hb rfl hctx hR key ha.2.2, Poplar1.encodes key hb hf rfl hctx hR ha⟩

/-- C58 for Poplar1: unless the sampler fails, a test vector is generated for every batch of measurements; it is accepted
by the checker and its result is the counts of the prefixes. -/
theorem C58_poplar1 (prims : Prims) {fuel : ℕ} (hf : fuel < 2 ^ 120) {bits : ℕ} {P : Poplar1}
    (hP : Poplar1.init bits = .ok P) {level : ℕ} {prefixes : List (List Bool)} (hl : level < bits)
    (hl16 : level < 2 ^ 16) (hnd : prefixes.Nodup) (hlen : prefixes.length < 2 ^ 32)
    (hpl : ∀ p ∈ prefixes, p.length = level + 1)
    {key ctx : Bytes} (hk : key.length = 32) (hctx : ctx.length + 8 < 2 ^ 16)
    (batch : List (List Bool × Bytes × Bytes))
    (hbatch : ∀ m ∈ batch, m.1.length = bits ∧ m.2.1.length = 16 ∧ m.2.2.length = 128) :
    runVdaf (P.vdaf prims fuel) key (level, prefixes) ctx batch = .error .fuel ∨
    ∃ tv, genTestVecWith (P.vdaf prims fuel) P.shareCodec key (level, prefixes) ctx batch = .ok tv ∧
      checkTestVector (P.vdaf prims fuel) P.shareCodec tv = .ok () ∧
      tv.aggResult =
        some (prefixes.map fun p => Spec.countPrefix (batch.map Prod.fst) p % Spec.levelModulus bits level) := by
  rcases C33_end_to_end prims hf hP hl hl16 hnd hpl hk hctx batch hbatch with h | h
  · exact .inl h
  · right
    obtain ⟨hRT, hE⟩ := C58_poplar1_codec prims hf hP key ctx hctx (a := (level, prefixes)) ⟨hl16, hlen, hpl⟩ batch
      fun m hm => (hbatch m hm).1
    obtain ⟨tv, h3, h4⟩ := C58_generates hE (show 0 < 2 by decide) (fun m hm => (hbatch m hm).2.1) h
    exact ⟨tv, h3, C58_accepts hRT (show 0 < 2 by decide) (show 0 < 2 by decide) h3, h4⟩

/-! ## Examples -/

/-- The VDAF `tester` of the examples of C39, except that the encoded aggregation parameter must have 8 bytes -/
def strictTester (rounds : ℕ) : VdafImpl ℕ ℕ Unit ℕ ℕ ℕ ℕ (ℕ × ℕ) ℕ ℕ :=
  { tester rounds with
    decodeAggParam := fun b => if b.length = 8 then .ok (fromBeBytes b) else .error (.value "length") }

/-- A codec for its output shares and aggregate shares -/
def testerCodec : ShareCodec ℕ ℕ ℕ where
  encodeAggShare s := toBeBytes s 8
  decodeAggShare _ b := .ok (fromBeBytes b)
  encodeOutShare s := toBeBytes s 8
  decodeOutShare _ b := .ok (fromBeBytes b)

/-- A test vector of a VDAF with two rounds -/
def testerVec : Res (TestVec ℕ ℕ) := genTestVecWith (strictTester 2) testerCodec [] 3 [7] [(5, [], []), (11, [], [])]

/-- The test vector is generated and accepted; changing a listed message, the result or the order of the operations makes
the checker fail. -/
example : ∃ tv, testerVec = .ok tv ∧ checkTestVector (strictTester 2) testerCodec tv = .ok () ∧
    tv.aggResult = some 51 ∧ tv.operations = Spec.operations 2 2 2 ∧ tv.operations.length = 21 ∧
    (∃ e, checkTestVector (strictTester 2) testerCodec { tv with aggResult := some 52 } = .error e) ∧
    (∃ e, checkTestVector (strictTester 2) testerCodec { tv with aggShares := tv.aggShares.reverse } = .error e) ∧
    (∃ e, checkTestVector (strictTester 2) testerCodec { tv with operations := tv.operations.reverse } = .error e) :=
  ⟨_, rfl, by decide +kernel, by decide +kernel, by decide +kernel, by decide +kernel, ⟨_, rfl⟩, ⟨_, rfl⟩, ⟨_, rfl⟩⟩

/-- A negative test vector: the first verifier message is replaced, and then Aggregator 1 raises an exception; the same
vector is not accepted if the message is right or if the operation is marked as a success. -/
example : ∃ tv, testerVec = .ok tv ∧
    let bad := { tv with
      operations := [.verifyInit 0 0 true, .verifyInit 1 0 true, .verifyNext 1 1 0 false]
      reports := tv.reports.map fun rep => { rep with verifierMessages := [hex [0, 0, 0, 0, 0, 0, 0, 9]] } }
    checkTestVector (strictTester 2) testerCodec bad = .ok () ∧
    (∃ e, checkTestVector (strictTester 2) testerCodec { bad with reports := tv.reports } = .error e) ∧
    (∃ e, checkTestVector (strictTester 2) testerCodec { bad with
      operations := [.verifyInit 0 0 true, .verifyInit 1 0 true, .verifyNext 1 1 0 true] } = .error e) :=
  ⟨_, rfl, by decide +kernel, ⟨_, rfl⟩, ⟨_, rfl⟩⟩

/-- The hypothesis of `C58_accepts` and `C58_check` holds for this VDAF. -/
example {rounds : ℕ} (key ctx : Bytes) (a : ℕ) (reports : List (ℕ × Bytes × Bytes)) :
    Spec.RoundTrips (strictTester rounds) testerCodec key a ctx reports := by
  have h : ∀ (z : ℕ) b, toBeBytes z 8 = .ok b → fromBeBytes b = z := fun z b hb => by
    have := fromBe_toBe hb
    exact_mod_cast this
  refine ⟨fun b => ⟨fun hb => ?_, fun hb => ?_⟩, fun _ _ _ _ _ _ _ => rfl, fun _ _ _ _ _ s b _ _ _ hb => ?_,
    fun _ _ _ _ _ _ sh b _ _ hb => ?_, fun _ _ _ _ _ _ m b _ _ _ _ hb _ _ => ?_,
    fun _ _ _ _ _ _ _ _ o b _ _ _ hb => ?_, fun _ s b _ hb => ?_⟩
  · show (if b.length = 8 then .ok (fromBeBytes b) else _) = Except.ok a
    rw [if_pos (toBeBytes_length hb), h a b hb]
  · replace hb : (if b.length = 8 then .ok (fromBeBytes b) else _) = Except.ok a := hb
    split at hb
    · rename_i h8
      cases hb
      show toBeBytes (fromBeBytes b : Int) 8 = .ok b
      rw [← h8]
      exact toBe_fromBe b
    · cases hb
  · exact congrArg Except.ok (h s b hb)
  · exact congrArg Except.ok (h sh b hb)
  · exact congrArg Except.ok (h m b hb)
  · exact congrArg Except.ok (h o b hb)
  · exact congrArg Except.ok (h s b hb)

/-- A test vector for `Prio3Count` with 3 Aggregators -/
example : (do
    let P ← Prio3Count toyPrims 10 3
    let tv ← genTestVec P.vdaf (Prio3.shareCodec Field64) () [1] [1, 0, 1]
    checkTestVector P.vdaf (Prio3.shareCodec Field64) tv
    return (tv.aggResult, decide (tv.operations = Spec.operations 1 3 3))) = .ok (some 2, true) := by decide +kernel

/-- A test vector for Poplar1 with 3 bits -/
example : (do
    let P ← Poplar1.init 3
    let tv ← genTestVec (P.vdaf toyPrims 10) P.shareCodec (1, [[true, false], [true, true]]) [1]
      [[true, false, true], [true, false, false]]
    checkTestVector (P.vdaf toyPrims 10) P.shareCodec tv
    return (tv.aggResult, decide (tv.operations = Spec.operations 2 2 2))) = .ok (some [2, 0], true) := by
  decide +kernel
end Vdaf
