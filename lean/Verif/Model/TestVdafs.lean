import Verif.Model.Vdaf
import Verif.Model.Xof
import Verif.Model.Fields

/-!
# Model of the DAF and the VDAF of the tests

`TestDaf` in `poc/tests/test_daf.py` and `PingPongTester` in `poc/tests/test_vdaf_ping_pong.py`.
-/

namespace Vdaf

/-- `functools.reduce(lambda x, y: x + y, values)` of test_daf.py:82 and :89 -/
def reduceAdd {F : Type} [PyField F] : List F → Res F
  | [] => .error .type
  | x :: xs => .ok (xs.foldl (· + ·) x)

/-- test_daf.py:10-89, class `TestDaf` (the parts used by `run_daf`; `is_valid` and `merge` are below) -/
def testDaf (prims : Prims) (fuel : ℕ) : DafImpl Int Unit Unit Field128 Field128 Field128 ℕ where
  shares := 2
  nonceSize := 0
  randSize := 32
  shard _ctx measurement nonce rand := do
    raiseIf (nonce.length ≠ 0) "incorrect nonce size"
    raiseIf (rand.length ≠ 32) "incorrect size of random bytes argument"
    let helperShares ← (XofTurboShake128 prims fuel).expandIntoVec Field128 rand [] [] (2 - 1)
    let leaderShare ← ofInt Field128 measurement
    let leaderShare := helperShares.foldl (fun leaderShare helperShare => leaderShare - helperShare) leaderShare
    return ((), leaderShare :: helperShares)
  prep _ctx _aggId _aggParam nonce _publicShare inputShare := do
    raiseIf (nonce.length ≠ 0) "incorrect nonce size"
    return inputShare
  aggInit _ := ofInt Field128 0
  aggUpdate _ aggShare outShare := .ok (aggShare + outShare)
  unshard _ aggShares _ := do
    let x ← reduceAdd aggShares
    return PyField.toNat x

/-- test_daf.py:78-82 `TestDaf.merge` -/
def testDafMerge (aggShares : List Field128) : Res Field128 := reduceAdd aggShares

/-- `s.encode('utf-8')` -/
def encodeUtf8 (s : String) : Bytes := s.toUTF8.data.toList

/-- `b.decode('utf-8')`; the `UnicodeDecodeError` it raises is a `ValueError`. -/
def decodeUtf8 (b : Bytes) : Res String :=
  match String.fromUTF8? ⟨b.toArray⟩ with
  | some s => .ok s
  | none => .error (.value "invalid utf-8")

/-- `'verify round {}'.format(current_round)` -/
def roundName (round : ℕ) : String := "verify round " ++ toString round

/-- test_vdaf_ping_pong.py:70-77 `PingPongTester.verifier_shares_to_message` -/
def testerMessage (verifierShares : List String) : Res String := do
  let first ← getI verifierShares 0
  forFold (verifierShares.drop 1) () fun _ verifierShare =>
    raiseIf (verifierShare ≠ first) "unexpected verifier share"
  return first

/-- test_vdaf_ping_pong.py:79-92 `PingPongTester.verify_next` -/
def testerNext (rounds : ℕ) (state : ℕ × Int) (verifierMessage : String) : Res (Next (ℕ × Int) String Int) := do
  let (currentRound, outShare) := state
  raiseIf (verifierMessage ≠ roundName currentRound) "unexpected verifier message"
  if currentRound + 1 = rounds then return .out outShare
  else return .cont (currentRound + 1, outShare) (roundName (currentRound + 1))

/-- test_vdaf_ping_pong.py:13-165, class `PingPongTester` with the argument `num_rounds`.  In `verifier_shares_to_message`
an empty list of shares raises `IndexError` either way; `//` is `Int.fdiv`. -/
def pingPongTester (numRounds : ℕ) : VdafImpl Int Int String Int Int Int Int (ℕ × Int) String String where
  id := 0xFFFFFFFF
  verifyKeySize := 0
  nonceSize := 0
  randSize := 0
  rounds := numRounds
  shares := 2
  shard _ measurement _ _ := .ok ("public share", [measurement, measurement])
  isValid _ previousAggParams := .ok (previousAggParams.length == 0)
  verifyInit _ _ _ _ _ publicShare inputShare := do
    raiseIf (publicShare ≠ "public share") "unexpected public share"
    return ((0, inputShare), roundName 0)
  sharesToMessage _ _ verifierShares := testerMessage verifierShares
  verifyNext _ state verifierMessage := testerNext numRounds state verifierMessage
  aggInit _ := .ok 0
  aggUpdate _ aggShare aggDelta := .ok (aggShare + aggDelta)
  merge _ _ := .error .notImplemented
  unshard aggParam aggShares _ := .ok ((aggParam * aggShares.sum).fdiv 2)
  encodeAggParam a := toBeBytes a 8
  decodeAggParam b := .ok (fromBeBytes b)
  encodePublicShare s := .ok (encodeUtf8 s)
  decodePublicShare b := decodeUtf8 b
  encodeInputShare s := toBeBytes s 8
  decodeInputShare _ b := .ok (fromBeBytes b)
  encodeVerifierShare s := .ok (encodeUtf8 s)
  decodeVerifierShare _ b := decodeUtf8 b
  encodeVerifierMessage s := .ok (encodeUtf8 s)
  decodeVerifierMessage _ b := decodeUtf8 b

end Vdaf
