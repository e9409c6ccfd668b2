import Verif.Proofs.WireSizes
import Verif.Props.Sizes

/-!
# Property C89: the sizes of the messages in the ping-pong topology are public

No malicious peer, and no malicious Client, can make an honest Leader or Helper send a message of another size.
-/

namespace Vdaf
open Spec

section
variable {prims : Prims} {fuel : ℕ}

/-- C89 for every instance of Prio3 with two Aggregators -/
theorem C89_prio3 {F : Type} [NttField F] {Meas Agg : Type} {P : Prio3 (XofTurboShake128 prims fuel) F Meas Agg}
    {fn : Fun Meas Agg} (I : Instance P fn) (hp : 0 < P.proofs) (h2 : P.shares = 2) {aggParam : Bytes}
    (ha : P.vdaf.decodeAggParam aggParam = .ok ()) :
    HasWireSizes P.vdaf aggParam (prio3Sizes (PyField.encSize F) 2 P.proofs
      ⟨P.flp.measLen, P.proofLen, P.flp.verifierLen, P.flp.outputLen, decide (0 < P.flp.jointRandLen)⟩) := by
  have H := Prio3.hasSizes I hp
  rw [h2] at H
  exact PingPong.wireSizes (Prio3.local_sizes h2 H rfl) ha

/-- C89 for Poplar1 -/
theorem C89_poplar1 (hf : fuel < 2 ^ 120) {bits : ℕ} {P : Poplar1} (hP : Poplar1.init bits = .ok P)
    {aggParam : Bytes} {a : Poplar1AggParam} (ha : (P.vdaf prims fuel).decodeAggParam aggParam = .ok a) (hl : a.1 < bits) :
    HasWireSizes (P.vdaf prims fuel) aggParam (poplar1Sizes bits a.1 a.2.length) := by
  unfold Poplar1.init at hP
  obtain ⟨I, hI, hP⟩ := Except.bind_eq_ok.1 hP
  cases hP
  obtain ⟨rfl, -, -⟩ := Idpf.init_ok hI
  exact PingPong.wireSizes (Poplar1.local_sizes hf rfl hl) ha

end

/-! ## Examples -/

/-- The numbers of bytes of the first message of the Leader, of a continue message and of a finish message -/
def Spec.Sizes.wire (S : Sizes) (rounds : ℕ) : List ℕ :=
  [pingPongSize [S.verifierShare 0], pingPongSize [S.verifierMessage 0, S.verifierShare 1],
    pingPongSize [S.verifierMessage (rounds - 1)]]

example : HasWireSizes (⟨1, 2, 1, Count Field64, 5⟩ : Prio3 (XofTurboShake128 toyPrims 40) Field64 Int Nat).vdaf []
    (prio3Sizes 8 2 1 countLens) :=
  C89_prio3 (instance_count (shares := 2) rfl).1 (by decide) rfl rfl

-- executions: the sizes of the messages of an honest Leader and an honest Helper
example : (do
    let P ← Prio3Histogram toyPrims 40 2 2 1
    let V := P.vdaf
    let (pub, ish) ← P.shard [1] 1 (List.replicate 16 3) (List.replicate 128 7)
    let p ← V.encodePublicShare pub
    let b0 ← V.encodeInputShare (← getI ish 0)
    let b1 ← V.encodeInputShare (← getI ish 1)
    let l ← PingPong.leaderInit V (List.replicate 32 5) [1] [] (List.replicate 16 3) p b0
    let h ← PingPong.helperInit V (List.replicate 32 5) [1] [] (List.replicate 16 3) p b1 ((outbound l).getD [])
    return ((outbound l).map List.length, (outbound h).map List.length)) =
      .ok (let S := prio3Sizes 16 2 1 (chunkLens 2 1 2)
        (some (pingPongSize [S.verifierShare 0]), some (pingPongSize [S.verifierMessage 0]))) := by decide +kernel

example : (do
    let P ← Poplar1.init 2
    let V := P.vdaf toyPrims 40
    let (pub, ish) ← P.shard toyPrims 40 [1] [true, false] (List.replicate 16 3) (List.replicate 128 7)
    let p ← V.encodePublicShare pub
    let b0 ← V.encodeInputShare (← getI ish 0)
    let b1 ← V.encodeInputShare (← getI ish 1)
    let a ← V.encodeAggParam (0, [[false], [true]])
    let a' ← V.decodeAggParam a
    let l ← PingPong.leaderInit V (List.replicate 32 5) [1] a (List.replicate 16 3) p b0
    let h ← PingPong.helperInit V (List.replicate 32 5) [1] a (List.replicate 16 3) p b1 ((outbound l).getD [])
    let l' ← receive V true [1] a l [(outbound h).getD []]
    return (a', [(outbound l).map List.length, (outbound h).map List.length, (outbound l').map List.length])) =
      .ok ((0, [[false], [true]]), (poplar1Sizes 2 0 2).wire 2 |>.map some) := by decide +kernel

end Vdaf
