import Verif.Spec.Xof
import Verif.Model.Vdaf

/-!
# Specification vocabulary for termination

The model cuts a run of the rejection-sampling loop off after a given number of iterations (its fuel), which
Python does not.  A Python computation is therefore a family of results, one for every fuel.
-/

namespace Vdaf.Spec

/-- The computation terminates with the outcome `v` (a value or an exception): `v` is not the mark of a loop
that was cut off, it is the result for every sufficiently large fuel, and whatever the fuel, the result is
`v` unless a loop was cut off. -/
def Outcome {α : Type} (r : Nat → Res α) (v : Res α) : Prop :=
  v ≠ .error .fuel ∧ (∃ enough, ∀ fuel, enough ≤ fuel → r fuel = v) ∧
    ∀ fuel, r fuel = .error .fuel ∨ r fuel = v

/-- The computation returns or raises an exception. -/
def Halts {α : Type} (r : Nat → Res α) : Prop := ∃ v, Outcome r v

/-- Rejection sampling from the XOF ends: from every state, reading chunk after chunk of `ENCODED_SIZE` bytes
either makes the XOF raise or sooner or later gives a chunk that is accepted. -/
def SamplingEnds (X : Xof) (F : Type) [PyField F] : Prop :=
  ∀ st : X.State, ∃ k : Nat,
    (∃ e, readAll X st (List.replicate k (PyField.encSize F)) = .error e) ∨
    ∃ cs st' c x, readAll X st (List.replicate k (PyField.encSize F)) = .ok (cs, st') ∧ c ∈ cs ∧
      sample F c = some x

/-- Every method of a VDAF terminates, whatever its arguments. -/
structure AllTerminate {Meas AggParam PubShare InShare OutShare AggShare AggRes VState VShare VMsg : Type}
    (V : Nat → VdafImpl Meas AggParam PubShare InShare OutShare AggShare AggRes VState VShare VMsg) :
    Prop where
  shard : ∀ ctx m nonce rand, Halts fun f => (V f).shard ctx m nonce rand
  isValid : ∀ a as, Halts fun f => (V f).isValid a as
  verifyInit : ∀ key ctx j a nonce pub s, Halts fun f => (V f).verifyInit key ctx j a nonce pub s
  sharesToMessage : ∀ ctx a vs, Halts fun f => (V f).sharesToMessage ctx a vs
  verifyNext : ∀ ctx st msg, Halts fun f => (V f).verifyNext ctx st msg
  aggInit : ∀ a, Halts fun f => (V f).aggInit a
  aggUpdate : ∀ a s o, Halts fun f => (V f).aggUpdate a s o
  merge : ∀ a ss, Halts fun f => (V f).merge a ss
  unshard : ∀ a ss n, Halts fun f => (V f).unshard a ss n
  encodeAggParam : ∀ a, Halts fun f => (V f).encodeAggParam a
  decodeAggParam : ∀ b, Halts fun f => (V f).decodeAggParam b
  encodePublicShare : ∀ p, Halts fun f => (V f).encodePublicShare p
  decodePublicShare : ∀ b, Halts fun f => (V f).decodePublicShare b
  encodeInputShare : ∀ s, Halts fun f => (V f).encodeInputShare s
  decodeInputShare : ∀ j b, Halts fun f => (V f).decodeInputShare j b
  encodeVerifierShare : ∀ v, Halts fun f => (V f).encodeVerifierShare v
  decodeVerifierShare : ∀ st b, Halts fun f => (V f).decodeVerifierShare st b
  encodeVerifierMessage : ∀ m, Halts fun f => (V f).encodeVerifierMessage m
  decodeVerifierMessage : ∀ st b, Halts fun f => (V f).decodeVerifierMessage st b

end Vdaf.Spec
