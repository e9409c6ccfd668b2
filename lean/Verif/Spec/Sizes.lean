import Verif.Spec.TestVectors
import Verif.Spec.Prio3
import Verif.Model.Poplar1

/-! # Specification vocabulary for the sizes of the messages -/

namespace Vdaf.Spec

/-- Numbers of bytes: of the public share; of the input share of each Aggregator; of a verifier share and of the
verifier message of each round (counted from 0); of an output share; of an aggregate share. -/
structure Sizes where
  publicShare : ℕ
  inputShare : ℕ → ℕ
  verifierShare : ℕ → ℕ
  verifierMessage : ℕ → ℕ
  outShare : ℕ
  aggShare : ℕ

/-- Encoding succeeds and gives `n` bytes. -/
def EncodesTo (n : ℕ) (r : Res Bytes) : Prop := ∃ b, r = .ok b ∧ b.length = n

variable {Meas AggParam PubShare InShare OutShare AggShare AggRes VState VShare VMsg : Type}

/-- The messages of all executions with the aggregation parameter `a` have the sizes `S`: whatever the (valid)
measurement, the nonce, the randomness, the verification key and the application context are; and, for what the
Aggregators send and hold, whatever public share and input share they process and whatever messages they receive. -/
structure HasSizes (V : VdafImpl Meas AggParam PubShare InShare OutShare AggShare AggRes VState VShare VMsg)
    (C : ShareCodec AggParam OutShare AggShare) (valid : Meas → Prop) (a : AggParam) (S : Sizes) : Prop where
  publicShare : ∀ ctx m nonce rand pub ish, ctx.length + 8 < 2 ^ 16 → valid m → V.shard ctx m nonce rand = .ok (pub, ish) →
    EncodesTo S.publicShare (V.encodePublicShare pub)
  inputShare : ∀ ctx m nonce rand pub ish, ctx.length + 8 < 2 ^ 16 → valid m → V.shard ctx m nonce rand = .ok (pub, ish) →
    ish.length = V.shares ∧ ∀ j s, ish[j]? = some s → EncodesTo (S.inputShare j) (V.encodeInputShare s)
  verifierShare : ∀ vk ctx nonce pub j s r st sh, j < V.shares → Held V vk ctx a nonce pub j s r st sh →
    EncodesTo (S.verifierShare r) (V.encodeVerifierShare sh)
  verifierMessage : ∀ ctx r shs msg,
    (∀ sh ∈ shs, ∃ vk nonce pub j s st, j < V.shares ∧ Held V vk ctx a nonce pub j s r st sh) →
    V.sharesToMessage ctx a shs = .ok msg → EncodesTo (S.verifierMessage r) (V.encodeVerifierMessage msg)
  outShare : ∀ vk ctx nonce pub j s r st sh msg o, j < V.shares → Held V vk ctx a nonce pub j s r st sh →
    V.verifyNext ctx st msg = .ok (.out o) → EncodesTo S.outShare (C.encodeOutShare o)
  aggShare : ∀ outs agg, aggregate V a outs = .ok agg → EncodesTo S.aggShare (C.encodeAggShare agg)
  merged : ∀ aggs agg, V.merge a aggs = .ok agg → EncodesTo S.aggShare (C.encodeAggShare agg)

/-- The numbers of field elements that a circuit determines, and whether it uses joint randomness -/
structure Lens where
  meas : ℕ
  proof : ℕ
  verifier : ℕ
  output : ℕ
  joint : Bool

/-- The sizes for Prio3 with `shares` Aggregators and `proofs` proofs over a field whose elements take `e` bytes; seeds
take 32 bytes. -/
def prio3Sizes (e shares proofs : ℕ) (L : Lens) : Sizes where
  publicShare := if L.joint then 32 * shares else 0
  inputShare j := (if j = 0 then e * L.meas + e * (L.proof * proofs) else 32) + if L.joint then 32 else 0
  verifierShare _ := e * (L.verifier * proofs) + if L.joint then 32 else 0
  verifierMessage _ := if L.joint then 32 else 0
  outShare := e * L.output
  aggShare := e * L.output

/-- The numbers for `Count` -/
def countLens : Lens := ⟨1, 5, 4, 1, false⟩

/-- The numbers for `Sum`; `bits` is the bit length of the largest measurement. -/
def sumLens (bits : ℕ) : Lens := ⟨bits, 2 * 2 ^ Nat.size bits, 3, 1, false⟩

/-- The numbers for the circuits that check `n` elements to be bits, in chunks of `chunk` elements -/
def chunkLens (n chunk output : ℕ) : Lens :=
  ⟨n, 2 * chunk + 2 * (2 ^ Nat.size ((n + chunk - 1) / chunk) - 1) + 1, 2 * chunk + 2, output, true⟩

/-- The sizes for Poplar1 with strings of `bits` bits, at level `level` with `n` prefixes: elements of the inner levels
take 8 bytes, those of the last level 32; a seed of the IDPF takes 16 bytes, that of the correlated randomness 32. -/
def poplar1Sizes (bits level n : ℕ) : Sizes where
  publicShare := (2 * bits + 7) / 8 + 16 * bits + 2 * 8 * (bits - 1) + 2 * 32
  inputShare _ := 16 + 32 + 2 * 8 * (bits - 1) + 2 * 32
  verifierShare r := (if r = 0 then 3 else 1) * if level + 1 = bits then 32 else 8
  verifierMessage r := if r = 0 then 3 * if level + 1 = bits then 32 else 8 else 0
  outShare := n * if level + 1 = bits then 32 else 8
  aggShare := n * if level + 1 = bits then 32 else 8

end Vdaf.Spec
