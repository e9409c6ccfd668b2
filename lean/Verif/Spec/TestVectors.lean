import Verif.Model.TestVectors
import Verif.Spec.PingPong

/-! # Specification vocabulary for the test vectors -/

namespace Vdaf.Spec
open TestVectors

/-- The operations on one report: shard; every Aggregator initializes; then, in each round, the verifier shares are
combined into a message and every Aggregator processes it. -/
def reportOperations (rounds shares r : ℕ) : List Operation :=
  .shard r true :: (List.range shares).map (fun j => .verifyInit j r true) ++
    (List.range rounds).flatMap fun i =>
      .sharesToMessage i r true :: (List.range shares).map fun j => .verifyNext (i + 1) j r true

/-- The operations of a complete test vector: those on every report; then every Aggregator aggregates; then the
Collector unshards. -/
def operations (rounds shares reports : ℕ) : List Operation :=
  (List.range reports).flatMap (reportOperations rounds shares) ++
    (List.range shares).map (fun j => .aggregate j true) ++ [.unshard true]

/-- The operation produces the state of Aggregator `j` for report `r` after round `k`. -/
def Produces (op : Operation) (r j k : ℕ) : Prop :=
  (op = .verifyInit j r true ∧ k = 0) ∨ op = .verifyNext k j r true

/-- The operation consumes the state of Aggregator `j` for report `r` after round `k`. -/
def Consumes (op : Operation) (r j k : ℕ) : Prop :=
  (∃ success, op = .sharesToMessage k r success) ∨ ∃ success, op = .verifyNext (k + 1) j r success

/-- Every operation comes after those that produce the states it consumes. -/
def WellOrdered (shares : ℕ) (ops : List Operation) : Prop :=
  ∀ (p : ℕ) op r j k, ops[p]? = some op → j < shares → Consumes op r j k →
    ∃ q < p, ∃ op', ops[q]? = some op' ∧ Produces op' r j k

/-- `h` is a hexadecimal string of the same bytes as `h'`. -/
def SameBytes (h' h : Hex) : Prop := ∃ b, fromHex h' = .ok b ∧ fromHex h = .ok b

/-- Every entry of `l'` is listed at the same position of `l`. -/
def Listed (l' l : List Hex) : Prop := ∀ (i : ℕ) h', l'[i]? = some h' → ∃ h, l[i]? = some h ∧ SameBytes h' h

/-- Every message of the report `x` is listed in the report `y`. -/
structure ReportListed {Meas : Type} (x y : Report Meas) : Prop where
  measurement : x.measurement = y.measurement
  nonce : SameBytes x.nonce y.nonce
  rand : SameBytes x.rand y.rand
  publicShare : SameBytes x.publicShare y.publicShare
  inputShares : List.Forall₂ SameBytes x.inputShares y.inputShares
  verifierShares : ∀ (k : ℕ) row, x.verifierShares[k]? = some row → ∃ row', y.verifierShares[k]? = some row' ∧ Listed row row'
  verifierMessages : Listed x.verifierMessages y.verifierMessages
  outShares : Listed x.outShares y.outShares

/-- The parameters of the test vector, all its reports, aggregate shares and the result are those of `x`. -/
structure VectorListed {Meas AggRes : Type} (x y : TestVec Meas AggRes) : Prop where
  verifyKey : SameBytes x.verifyKey y.verifyKey
  aggParam : SameBytes x.aggParam y.aggParam
  ctx : SameBytes x.ctx y.ctx
  reports : List.Forall₂ ReportListed x.reports y.reports
  aggShares : List.Forall₂ SameBytes x.aggShares y.aggShares
  aggResult : x.aggResult = y.aggResult

section
variable {Meas AggParam PubShare InShare OutShare AggShare AggRes VState VShare VMsg : Type}
variable (V : VdafImpl Meas AggParam PubShare InShare OutShare AggShare AggRes VState VShare VMsg)
variable (C : ShareCodec AggParam OutShare AggShare)

/-- The inputs that a test vector lists: the verification key, the aggregation parameter, the context and, for each
report, the measurement, the nonce and the random bytes -/
structure Inputs (tv : TestVec Meas AggRes) (verifyKey : Bytes) (aggParam : AggParam) (ctx : Bytes)
    (reports : List (Meas × Bytes × Bytes)) : Prop where
  verifyKey : fromHex tv.verifyKey = .ok verifyKey
  aggParam : ∃ b, fromHex tv.aggParam = .ok b ∧ V.decodeAggParam b = .ok aggParam
  ctx : fromHex tv.ctx = .ok ctx
  reports : List.Forall₂ (fun R (rep : Report Meas) => R.1 = rep.measurement ∧ fromHex rep.nonce = .ok R.2.1 ∧
    fromHex rep.rand = .ok R.2.2) reports tv.reports

/-- All the messages of honest executions on the reports survive encoding and decoding. -/
structure RoundTrips (verifyKey : Bytes) (a : AggParam) (ctx : Bytes) (reports : List (Meas × Bytes × Bytes)) : Prop where
  aggParam : ∀ b, V.encodeAggParam a = .ok b ↔ V.decodeAggParam b = .ok a
  publicShare : ∀ R ∈ reports, ∀ pub ins b, V.shard ctx R.1 R.2.1 R.2.2 = .ok (pub, ins) →
    V.encodePublicShare pub = .ok b → V.decodePublicShare b = .ok pub
  inputShare : ∀ R ∈ reports, ∀ pub ins j s b, V.shard ctx R.1 R.2.1 R.2.2 = .ok (pub, ins) → j < V.shares →
    ins[j]? = some s → V.encodeInputShare s = .ok b → V.decodeInputShare j b = .ok s
  verifierShare : ∀ nonce pub j s k st sh b, j < V.shares → Held V verifyKey ctx a nonce pub j s k st sh →
    V.encodeVerifierShare sh = .ok b → V.decodeVerifierShare st b = .ok sh
  verifierMessage : ∀ nonce pub (ins : List InShare) k (sts : List VState) (shs : List VShare) msg b, sts.length = V.shares → shs.length = V.shares →
    (∀ j (h : j < sts.length) (h' : j < shs.length), ∃ s, ins[j]? = some s ∧
      Held V verifyKey ctx a nonce pub j s k sts[j] shs[j]) →
    V.sharesToMessage ctx a shs = .ok msg → V.encodeVerifierMessage msg = .ok b →
    ∀ st ∈ sts, V.decodeVerifierMessage st b = .ok msg
  outShare : ∀ nonce pub j s k st sh msg o b, j < V.shares → Held V verifyKey ctx a nonce pub j s k st sh →
    V.verifyNext ctx st msg = .ok (.out o) → C.encodeOutShare o = .ok b → C.decodeOutShare a b = .ok o
  aggShare : ∀ os s b, aggregate V a os = .ok s → C.encodeAggShare s = .ok b →
    C.decodeAggShare a b = .ok s

/-- All the messages of honest executions on the reports can be encoded. -/
structure Encodes (verifyKey : Bytes) (a : AggParam) (ctx : Bytes) (reports : List (Meas × Bytes × Bytes)) : Prop where
  aggParam : ∃ b, V.encodeAggParam a = .ok b
  publicShare : ∀ R ∈ reports, ∀ pub ins, V.shard ctx R.1 R.2.1 R.2.2 = .ok (pub, ins) →
    ∃ b, V.encodePublicShare pub = .ok b
  inputShare : ∀ R ∈ reports, ∀ pub ins, V.shard ctx R.1 R.2.1 R.2.2 = .ok (pub, ins) → ∀ s ∈ ins,
    ∃ b, V.encodeInputShare s = .ok b
  verifierShare : ∀ nonce pub j s k st sh, j < V.shares → Held V verifyKey ctx a nonce pub j s k st sh →
    ∃ b, V.encodeVerifierShare sh = .ok b
  verifierMessage : ∀ nonce pub (ins : List InShare) k (sts : List VState) (shs : List VShare) msg, sts.length = V.shares →
    shs.length = V.shares → (∀ j (h : j < sts.length) (h' : j < shs.length), ∃ s, ins[j]? = some s ∧
      Held V verifyKey ctx a nonce pub j s k sts[j] shs[j]) →
    V.sharesToMessage ctx a shs = .ok msg → ∃ b, V.encodeVerifierMessage msg = .ok b
  outShare : ∀ nonce pub j s k st sh msg o, j < V.shares → Held V verifyKey ctx a nonce pub j s k st sh →
    V.verifyNext ctx st msg = .ok (.out o) → ∃ b, C.encodeOutShare o = .ok b
  aggShare : ∀ os s, aggregate V a os = .ok s → ∃ b, C.encodeAggShare s = .ok b

end

/-! ### What the individual operations of a test vector claim -/

/-- The call raises an exception (and does not run forever). -/
def Raises {α : Type} (r : Res α) : Prop := ∃ e, r = .error e ∧ e ≠ .fuel

/-- The entry at position `i` is a hexadecimal string of the bytes `b`. -/
def BytesAt (l : List Hex) (i : ℕ) (b : Bytes) : Prop := ∃ h, l[i]? = some h ∧ fromHex h = .ok b

/-- The bytes of all entries, in order -/
def AllBytes (l : List Hex) (bs : List Bytes) : Prop := List.Forall₂ (fun h b => fromHex h = .ok b) l bs

section
variable {Meas AggParam PubShare InShare OutShare AggShare AggRes VState VShare VMsg : Type}
variable (V : VdafImpl Meas AggParam PubShare InShare OutShare AggShare AggRes VState VShare VMsg)
variable (C : ShareCodec AggParam OutShare AggShare)
variable (tv : TestVec Meas AggRes)

/-- The aggregation parameter that the test vector lists -/
def ListedAggParam (a : AggParam) : Prop := ∃ b, fromHex tv.aggParam = .ok b ∧ V.decodeAggParam b = .ok a

/-- The arguments of `verify_init` of Aggregator `j` that the test vector lists for a report -/
structure InitArgs (rep : Report Meas) (j : ℕ) (key ctx : Bytes) (a : AggParam) (nonce : Bytes) (pub : PubShare)
    (s : InShare) : Prop where
  key : fromHex tv.verifyKey = .ok key
  ctx : fromHex tv.ctx = .ok ctx
  aggParam : ListedAggParam V tv a
  nonce : fromHex rep.nonce = .ok nonce
  publicShare : ∃ b, fromHex rep.publicShare = .ok b ∧ V.decodePublicShare b = .ok pub
  inputShare : ∃ b, BytesAt rep.inputShares j b ∧ V.decodeInputShare j b = .ok s

/-- `st` is the state of Aggregator `j` for report `r` after `k` rounds on the listed inputs and messages, and `sh` the
verifier share it then sends. -/
inductive StateAfter (r j : ℕ) : ℕ → VState → VShare → Prop
  | init {rep key ctx a nonce pub s st sh} (hrep : tv.reports[r]? = some rep)
      (hargs : InitArgs V tv rep j key ctx a nonce pub s)
      (h : V.verifyInit key ctx j a nonce pub s = .ok (st, sh)) : StateAfter r j 0 st sh
  | next {k rep ctx b msg st sh st' sh'} (hk : StateAfter r j k st sh) (hrep : tv.reports[r]? = some rep)
      (hctx : fromHex tv.ctx = .ok ctx) (hb : BytesAt rep.verifierMessages k b)
      (hm : V.decodeVerifierMessage st b = .ok msg) (h : V.verifyNext ctx st msg = .ok (.cont st' sh')) :
      StateAfter r j (k + 1) st' sh'

/-- What an operation of a test vector claims about the VDAF, in terms of the data that the vector lists: that a call
returns the listed values or, if the operation is marked as a failure, that it raises an exception. -/
def OperationHolds : Operation → Prop
  | .shard r success => ∃ rep ctx nonce rand, tv.reports[r]? = some rep ∧ fromHex tv.ctx = .ok ctx ∧
      fromHex rep.nonce = .ok nonce ∧ fromHex rep.rand = .ok rand ∧
      if success then
        ∃ pub ins b, V.shard ctx rep.measurement nonce rand = .ok (pub, ins) ∧
          V.encodePublicShare pub = .ok b ∧ fromHex rep.publicShare = .ok b ∧
          List.Forall₂ (fun s h => ∃ b, V.encodeInputShare s = .ok b ∧ fromHex h = .ok b) ins rep.inputShares
      else Raises (V.shard ctx rep.measurement nonce rand)
  | .verifyInit j r success => ∃ rep key ctx a nonce pub s, tv.reports[r]? = some rep ∧
      InitArgs V tv rep j key ctx a nonce pub s ∧
      if success then
        j < V.shares ∧ ∃ st sh row b, V.verifyInit key ctx j a nonce pub s = .ok (st, sh) ∧
          rep.verifierShares[0]? = some row ∧ V.encodeVerifierShare sh = .ok b ∧ BytesAt row j b
      else Raises (V.verifyInit key ctx j a nonce pub s)
  | .sharesToMessage k r success => ∃ rep ctx a, tv.reports[r]? = some rep ∧ fromHex tv.ctx = .ok ctx ∧
      ListedAggParam V tv a ∧ ∃ (sts : List VState) (row : List Hex) (bs : List Bytes) (shs : List VShare),
      sts.length = V.shares ∧ (∀ j st, sts[j]? = some st → ∃ sh, StateAfter V tv r j k st sh) ∧
      rep.verifierShares[k]? = some row ∧ AllBytes row bs ∧
      List.Forall₂ (fun x sh => V.decodeVerifierShare x.1 x.2 = .ok sh) (sts.zip bs) shs ∧
      if success then
        ∃ msg b, V.sharesToMessage ctx a shs = .ok msg ∧ V.encodeVerifierMessage msg = .ok b ∧
          BytesAt rep.verifierMessages k b
      else Raises (V.sharesToMessage ctx a shs)
  | .verifyNext k j r success => j < V.shares ∧ ∃ i, k = i + 1 ∧ ∃ rep ctx st sh b msg, tv.reports[r]? = some rep ∧
      fromHex tv.ctx = .ok ctx ∧ StateAfter V tv r j i st sh ∧ BytesAt rep.verifierMessages i b ∧
      V.decodeVerifierMessage st b = .ok msg ∧
      if success then
        if k < V.rounds then
          ∃ st' sh' row b, V.verifyNext ctx st msg = .ok (.cont st' sh') ∧ rep.verifierShares[k]? = some row ∧
            V.encodeVerifierShare sh' = .ok b ∧ BytesAt row j b
        else
          ∃ o b, V.verifyNext ctx st msg = .ok (.out o) ∧ C.encodeOutShare o = .ok b ∧ BytesAt rep.outShares j b
      else Raises (V.verifyNext ctx st msg)
  | .aggregate j success => ∃ a os, ListedAggParam V tv a ∧
      List.Forall₂ (fun (rep : Report Meas) o => ∃ b, BytesAt rep.outShares j b ∧ C.decodeOutShare a b = .ok o)
        tv.reports os ∧
      if success then
        ∃ s b, aggregate V a os = .ok s ∧ C.encodeAggShare s = .ok b ∧ BytesAt tv.aggShares j b
      else Raises (aggregate V a os)
  | .unshard success => ∃ a ss, ListedAggParam V tv a ∧
      List.Forall₂ (fun h s => ∃ b, fromHex h = .ok b ∧ C.decodeAggShare a b = .ok s) tv.aggShares ss ∧
      if success then
        ∃ R, V.unshard a ss tv.reports.length = .ok R ∧ tv.aggResult = some R
      else Raises (V.unshard a ss tv.reports.length)
end

end Vdaf.Spec
