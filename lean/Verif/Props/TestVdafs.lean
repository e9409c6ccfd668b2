import Verif.Model.TestVdafs
import Verif.Proofs.Prio3Base
import Verif.Proofs.Drivers
import Verif.Props.PingPong
import Verif.Props.Xof

/-!
# Property C67: the DAF and the VDAF of the tests

`run_daf` with `TestDaf` returns the sum of the measurements, and `PingPongTester(ROUNDS)` computes its aggregation function
and completes the ping-pong exchange, for every number of rounds.
-/

namespace Vdaf
open PingPong

section
variable {prims : Prims} {fuel : ℕ}

theorem testDaf_report {ctx nonce rand : Bytes} {m : Int} (hm : -(PyField.modulus Field128 : Int) < m)
    (hm' : m < PyField.modulus Field128) (hn : nonce.length = 0) (hr : rand.length = 32) (a b : Field128) :
    (∃ h, (testDaf prims fuel).runReport ctx () [a, b] m nonce rand = .ok [a + (m - h), b + h]) ∨
    ((testDaf prims fuel).runReport ctx () [a, b] m nonce rand = .error .fuel ∧
      (XofTurboShake128 prims fuel).expandIntoVec Field128 rand [] [] 1 = .error .fuel) := by
  obtain ⟨B, hB1, hB2, -⟩ := Xof.Ok.turbo prims fuel Field128
  unfold DafImpl.runReport
  simp only [testDaf]
  rw [raiseIf_of_not (by simpa using hn), raiseIf_of_not (by simpa using hr), ofInt_eq hm' hm]
  simp only [Except.ok_bind']
  rcases (expandIntoVec_good (F := Field128) (binder := []) hB1 hB2 hr (dst := []) (by simp) 1).cases with
    ⟨v, hv, hl⟩ | ⟨e, he, rfl⟩
  · left
    obtain ⟨x, rfl⟩ := List.length_eq_one_iff.1 hl
    refine ⟨x, ?_⟩
    rw [hv]
    rfl
  · right
    refine ⟨?_, he⟩
    rw [he]
    rfl

/-- C67: `run_daf` with `TestDaf` returns the sum of the measurements modulo `MODULUS`, for all nonces and random bytes of the
right size.  The only other possibility is that sampling a field element from the random bytes of a report did not
terminate. -/
theorem C67_test_daf (ctx : Bytes) (reports : List (Int × Bytes × Bytes))
    (hm : ∀ x ∈ reports, -(PyField.modulus Field128 : Int) < x.1 ∧ x.1 < PyField.modulus Field128)
    (hn : ∀ x ∈ reports, x.2.1.length = 0) (hr : ∀ x ∈ reports, x.2.2.length = 32) :
    runDaf (testDaf prims fuel) ctx () reports =
      .ok ((reports.map Prod.fst).sum % (PyField.modulus Field128 : Int)).toNat ∨
    (runDaf (testDaf prims fuel) ctx () reports = .error .fuel ∧
      ∃ x ∈ reports, (XofTurboShake128 prims fuel).expandIntoVec Field128 x.2.2 [] [] 1 = .error .fuel) := by
  have loop : ∀ (l : List (Int × Bytes × Bytes)) (a b : Field128), (∀ x ∈ l, x ∈ reports) →
      (∃ a' b', forFold l [a, b] (fun aggShares x => (testDaf prims fuel).runReport ctx () aggShares x.1 x.2.1 x.2.2) =
        .ok [a', b'] ∧ a' + b' = a + b + ((l.map Prod.fst).sum : Int)) ∨
      (forFold l [a, b] (fun aggShares x => (testDaf prims fuel).runReport ctx () aggShares x.1 x.2.1 x.2.2) =
        .error .fuel ∧ ∃ x ∈ l, (XofTurboShake128 prims fuel).expandIntoVec Field128 x.2.2 [] [] 1 = .error .fuel) := by
    intro l
    induction l with
    | nil => intro a b _; exact .inl ⟨a, b, rfl, by simp⟩
    | cons x l ih =>
      intro a b hl
      have hx := hl x (by simp)
      rw [forFold_cons]
      rcases testDaf_report (prims := prims) (fuel := fuel) (ctx := ctx) (hm x hx).1 (hm x hx).2 (hn x hx) (hr x hx) a b with
        ⟨h, e⟩ | ⟨e, e'⟩
      · rw [e, Except.ok_bind']
        rcases ih (a + (x.1 - h)) (b + h) (fun y hy => hl y (by simp [hy])) with ⟨a', b', h1, h2⟩ | ⟨h1, y, hy, h2⟩
        · refine .inl ⟨a', b', h1, ?_⟩
          rw [h2, List.map_cons, List.sum_cons]
          push_cast
          ring
        · exact .inr ⟨h1, y, by simp [hy], h2⟩
      · rw [e]
        exact .inr ⟨rfl, x, by simp, e'⟩
  have h0 : mapRes (fun _ => (testDaf prims fuel).aggInit ()) (List.range (testDaf prims fuel).shares) =
      .ok [(0 : Field128), 0] := by
    have : ofInt Field128 0 = .ok 0 := by
      have := ofInt_nat (F := Field128) (n := 0) (modulus_pos _)
      simpa using this
    simp only [testDaf]
    rw [this]
    rfl
  unfold runDaf
  rw [h0, Except.ok_bind']
  rcases loop reports 0 0 (fun _ h => h) with ⟨a', b', h1, h2⟩ | ⟨h1, h2⟩
  · left
    rw [h1, Except.ok_bind']
    show (Except.ok (PyField.toNat (a' + b')) : Res ℕ) = _
    rw [h2, zero_add, zero_add]
    congr 1
  · right
    rw [h1]
    exact ⟨rfl, h2⟩

end

-- the reports of the test, with some random bytes
example : runDaf (testDaf toyPrims 40) [1] () ([1, 2, 3, 4].map fun m => (m, [], List.replicate 32 (UInt8.ofNat m.toNat))) =
    .ok 10 := by decide +kernel

/-! ## `PingPongTester` -/

theorem decode_encode_utf8 (s : String) : decodeUtf8 (encodeUtf8 s) = .ok s := by
  unfold decodeUtf8 encodeUtf8 String.fromUTF8?
  rw [show (⟨s.toUTF8.data.toList.toArray⟩ : ByteArray) = s.toUTF8 from rfl, dif_pos (show s.toUTF8.IsValidUTF8 from s.isValidUTF8)]
  rfl

theorem encodeUtf8_length (s : String) : (encodeUtf8 s).length ≤ 4 * s.length := by
  have key : ∀ l : List Char, l.utf8Encode.size ≤ 4 * l.length := by
    intro l
    induction l with
    | nil => simp
    | cons c l ih =>
      rw [List.utf8Encode_cons, ByteArray.size_append, List.utf8Encode_singleton, List.size_toByteArray,
        String.length_utf8EncodeChar, List.length_cons]
      have := c.utf8Size_le_four
      omega
  unfold encodeUtf8
  rw [Array.length_toList, ← s.ofList_toList, String.length_ofList]
  have := key s.toList
  rwa [← String.toByteArray_ofList] at this

theorem testerMessage_pair (x y : String) : testerMessage [x, y] = if x = y then .ok x else
    .error (.value "unexpected verifier share") := by
  unfold testerMessage
  by_cases h : y = x
  · subst h
    simp [getI, forFold, raiseIf]
  · rw [if_neg (Ne.symm h)]
    simp [getI, forFold, raiseIf, h]

theorem pingPongTester_held {rounds : ℕ} {k ctx n : Bytes} {a : Int} {pub : String} {j : ℕ} {s : Int} {r : ℕ} {st : ℕ × Int}
    {sh : String} (h : Spec.Held (pingPongTester rounds) k ctx a n pub j s r st sh) :
    st = (r, s) ∧ sh = roundName r ∧ (1 ≤ rounds → r < rounds) := by
  induction h with
  | init h =>
    simp only [pingPongTester] at h
    obtain ⟨-, -, h⟩ := Except.bind_eq_ok.1 h
    cases h
    exact ⟨rfl, rfl, id⟩
  | next h1 h ih =>
    obtain ⟨rfl, rfl, g3⟩ := ih
    simp only [pingPongTester, testerNext] at h
    obtain ⟨-, -, h⟩ := Except.bind_eq_ok.1 h
    split at h
    · cases h
    · cases h
      exact ⟨rfl, rfl, by omega⟩

theorem roundName_fits {r : ℕ} (h : r < 10 ^ 200) : Spec.Fits32 (encodeUtf8 (roundName r)) := by
  unfold Spec.Fits32
  refine (encodeUtf8_length _).trans_lt ?_
  unfold roundName
  rw [String.length_append]
  have : (toString r).length ≤ 200 := (Nat.length_repr_le_iff (by norm_num)).2 h
  have h2 : "verify round ".length = 13 := by decide
  omega

theorem pingPongTester_ready {rounds : ℕ} (h1 : 1 ≤ rounds) (h2 : rounds ≤ 10 ^ 200) (k ctx n : Bytes) (a : Int) (pub : String)
    (s0 s1 : Int) : Spec.PingPongReady (pingPongTester rounds) k ctx a n pub s0 s1 where
  last r st sh msg out hh hr hn := by
    have : st.1 = r := hh.elim (fun h => by rw [(pingPongTester_held h).1]) fun h => by rw [(pingPongTester_held h).1]
    have hr : r < rounds := hr
    simp only [pingPongTester, testerNext] at hn
    obtain ⟨-, -, hn⟩ := Except.bind_eq_ok.1 hn
    split at hn
    · cases hn
      simp only [reduceCtorEq, exists_false, iff_false]
      show ¬ (r + 1 < rounds); omega
    · cases hn
      exact ⟨fun _ => ⟨_, _, rfl⟩, fun _ => by show r + 1 < rounds; omega⟩
  share r st0 sh0 st1 sh1 hh0 hh1 := by
    obtain ⟨-, rfl, l0⟩ := pingPongTester_held hh0
    obtain ⟨-, rfl, l1⟩ := pingPongTester_held hh1
    have : Spec.Fits32 (encodeUtf8 (roundName r)) := roundName_fits (by have := l0 h1; omega)
    exact ⟨⟨_, rfl, this, decode_encode_utf8 _⟩, _, rfl, this, decode_encode_utf8 _⟩
  message r st0 sh0 st1 sh1 msg hh0 hh1 hm := by
    obtain ⟨-, rfl, l0⟩ := pingPongTester_held hh0
    obtain ⟨-, rfl, l1⟩ := pingPongTester_held hh1
    have : Spec.Fits32 (encodeUtf8 (roundName r)) := roundName_fits (by have := l0 h1; omega)
    change testerMessage [roundName r, roundName r] = _ at hm
    rw [testerMessage_pair, if_pos rfl] at hm
    cases hm
    exact ⟨_, rfl, this, decode_encode_utf8 _, decode_encode_utf8 _⟩

theorem pingPongTester_broadcast {rounds : ℕ} (h1 : 1 ≤ rounds) (k ctx n : Bytes) (a s0 s1 : Int) :
    Spec.broadcast (pingPongTester rounds) k a ctx n "public share" [s0, s1] = .ok [s0, s1] := by
  have step : ∀ r, r + 1 < rounds → (pingPongTester rounds).runRound ctx a ([(r, s0), (r, s1)], [roundName r, roundName r]) =
      .ok ([(r + 1, s0), (r + 1, s1)], [roundName (r + 1), roundName (r + 1)]) := by
    intro r hr
    have hn : ∀ s : Int, (pingPongTester rounds).verifyNextTuple ctx (r, s) (roundName r) =
        .ok ((r + 1, s), roundName (r + 1)) := by
      intro s
      unfold VdafImpl.verifyNextTuple
      simp only [pingPongTester, testerNext]
      rw [raiseIf_of_not (by simp), Except.ok_bind', if_neg (by omega)]
      rfl
    unfold VdafImpl.runRound
    rw [show (pingPongTester rounds).sharesToMessage ctx a ([(r, s0), (r, s1)], [roundName r, roundName r]).2 =
      testerMessage [roundName r, roundName r] from rfl, testerMessage_pair, if_pos rfl, Except.ok_bind']
    simp only [show List.range (pingPongTester rounds).shares = [0, 1] from rfl, mapRes, getI, List.getElem?_cons_zero,
      List.getElem?_cons_succ, Except.ok_bind', hn]
    rfl
  have loop : ∀ t, t < rounds → forFold (List.range t) ([(0, s0), (0, s1)], [roundName 0, roundName 0])
      (fun st _ => (pingPongTester rounds).runRound ctx a st) =
      .ok ([(t, s0), (t, s1)], [roundName t, roundName t]) := by
    intro t ht
    induction t with
    | zero => rfl
    | succ t ih =>
      rw [List.range_succ, forFold_append, ih (by omega), Except.ok_bind', forFold_cons, step t ht]
      rfl
  have hi : ∀ j s, (pingPongTester rounds).verifyInit k ctx j a n "public share" s = .ok ((0, s), roundName 0) := by
    intro j s
    simp only [pingPongTester]
    rw [raiseIf_of_not (by simp)]
    rfl
  have hl : ∀ s : Int, (pingPongTester rounds).verifyNextOut ctx (rounds - 1, s) (roundName (rounds - 1)) = .ok s := by
    intro s
    unfold VdafImpl.verifyNextOut
    simp only [pingPongTester, testerNext]
    rw [raiseIf_of_not (by simp), Except.ok_bind', if_pos (by omega)]
    rfl
  unfold Spec.broadcast
  simp only [show List.range (pingPongTester rounds).shares = [0, 1] from rfl, mapRes, getI, List.getElem?_cons_zero,
    List.getElem?_cons_succ, Except.ok_bind', hi, List.map_cons, List.map_nil]
  rw [show (pingPongTester rounds).rounds - 1 = rounds - 1 from rfl, loop (rounds - 1) (by omega),
    Except.ok_bind']
  dsimp only
  rw [show (pingPongTester rounds).sharesToMessage ctx a [roundName (rounds - 1), roundName (rounds - 1)] =
    testerMessage [roundName (rounds - 1), roundName (rounds - 1)] from rfl, testerMessage_pair, if_pos rfl, Except.ok_bind']
  simp only [List.getElem?_cons_zero, List.getElem?_cons_succ, Except.ok_bind', hl]

/-- C67: `PingPongTester` computes its aggregation function, the product of the aggregation parameter and the sum of the
measurements, for every number of rounds. -/
theorem C67_tester_run {rounds : ℕ} (h1 : 1 ≤ rounds) (a : Int) (ctx : Bytes) (reports : List (Int × Bytes × Bytes)) :
    runVdaf (pingPongTester rounds) [] a ctx reports = .ok (a * (reports.map Prod.fst).sum) := by
  rw [runVdaf_iff]
  refine ⟨rfl, ?_⟩
  have ho : mapRes (Spec.outShares (pingPongTester rounds) [] a ctx) reports = .ok (reports.map fun x => [x.1, x.1]) :=
    mapRes_pure _ _ _ fun x _ => by
      obtain ⟨m, nonce, rand⟩ := x
      rw [C39_broadcast]
      exact pingPongTester_broadcast h1 [] ctx nonce a m m
  have hg : ∀ j, j < 2 → mapRes (fun o : List Int => getI o j) (reports.map fun x => [x.1, x.1]) =
      .ok (reports.map Prod.fst) := by
    intro j hj
    rw [mapRes_map]
    refine mapRes_pure _ _ _ fun x _ => ?_
    interval_cases j <;> rfl
  have ha : ∀ l : List Int, Spec.aggregate (pingPongTester rounds) a l = .ok l.sum := by
    intro l
    unfold Spec.aggregate
    have : ∀ (l : List Int) (c : Int), forFold l c (fun x o => (pingPongTester rounds).aggUpdate a x o) = .ok (c + l.sum) := by
      intro l
      induction l with
      | nil => intro c; simp
      | cons x l ih =>
        intro c
        rw [forFold_cons]
        show (Except.ok (c + x) >>= _) = _
        rw [Except.ok_bind', ih, List.sum_cons, add_assoc]
    show (Except.ok 0 >>= _) = _
    rw [Except.ok_bind', this, zero_add]
  unfold Spec.separately
  rw [ho, Except.ok_bind']
  simp only [show List.range (pingPongTester rounds).shares = [0, 1] from rfl, mapRes, hg 0 (by norm_num), hg 1 (by norm_num),
    Except.ok_bind', ha]
  show (Except.ok ((a * ([(reports.map Prod.fst).sum, (reports.map Prod.fst).sum] : List Int).sum).fdiv 2) : Res Int) = _
  congr 1
  have : a * ([(reports.map Prod.fst).sum, (reports.map Prod.fst).sum] : List Int).sum = 2 * (a * (reports.map Prod.fst).sum) := by
    simp only [List.sum_cons, List.sum_nil]
    ring
  rw [this, Int.mul_fdiv_cancel_left _ (by norm_num)]

/-- C67: the ping-pong exchange with `PingPongTester` completes, for every number of rounds (of at most two hundred digits) and
all measurements and aggregation parameters of eight bytes: after `ROUNDS + 1` messages both parties are finished with the
measurement. -/
theorem C67_tester_ping_pong {rounds : ℕ} (h1 : 1 ≤ rounds) (h2 : rounds ≤ 10 ^ 200) (verifyKey ctx nonce rand : Bytes)
    {a m : ℕ} (ha : a < 2 ^ 64) (hm : m < 2 ^ 64) :
    ∃ pub s0 s1 ap ps i0 i1 msg,
      (pingPongTester rounds).shard ctx m nonce rand = .ok (pub, [s0, s1]) ∧
      (pingPongTester rounds).encodeAggParam a = .ok ap ∧ (pingPongTester rounds).encodePublicShare pub = .ok ps ∧
      (pingPongTester rounds).encodeInputShare s0 = .ok i0 ∧ (pingPongTester rounds).encodeInputShare s1 = .ok i1 ∧
      Spec.exchange (pingPongTester rounds) verifyKey ctx ap nonce ps i0 i1 rounds = .ok
        (if rounds % 2 = 1 then (.finished (.out m), .finishedWithOutbound (.out m) msg, rounds + 1)
          else (.finishedWithOutbound (.out m) msg, .finished (.out m), rounds + 1)) := by
  have ha' : a < 256 ^ 8 := by norm_num at ha ⊢; omega
  have hm' : m < 256 ^ 8 := by norm_num at hm ⊢; omega
  have hb := toBeBytes_nat ha'
  have hc := toBeBytes_nat hm'
  obtain ⟨o0, o1, msg, e1, e2⟩ := C39_success (pingPongTester rounds) verifyKey ctx nonce (natToLe a 8).reverse
    (encodeUtf8 "public share") (natToLe m 8).reverse (natToLe m 8).reverse
    (a : Int) "public share" (m : Int) (m : Int) rfl h1 (pingPongTester_ready h1 h2 _ _ _ _ _ _ _)
    (by show (Except.ok (fromBeBytes _ : Int) : Res Int) = _; rw [fromBe_toBe hb])
    (decode_encode_utf8 "public share")
    (by show (Except.ok (fromBeBytes _ : Int) : Res Int) = _; rw [fromBe_toBe hc])
    (by show (Except.ok (fromBeBytes _ : Int) : Res Int) = _; rw [fromBe_toBe hc])
    rounds le_rfl _ (pingPongTester_broadcast h1 _ _ _ _ _ _)
  simp only [List.cons.injEq, and_true] at e1
  obtain ⟨rfl, rfl⟩ := e1
  exact ⟨_, _, _, _, _, _, _, msg, rfl, hb, rfl, hc, hc, e2⟩

-- three rounds and four rounds; a message of another round is rejected
example : summary (Spec.exchange (pingPongTester 3) [] [] [0] [] (encodeUtf8 "public share") [7] [8] 9) =
      ("Finished", some 7, "FinishedWithOutbound", some 8, 4) ∧
    summary (Spec.exchange (pingPongTester 4) [] [] [0] [] (encodeUtf8 "public share") [7] [8] 9) =
      ("FinishedWithOutbound", some 7, "Finished", some 8, 5) ∧
    (testerNext 3 (1, 7) "verify round 2").isOk = false := by decide +kernel

end Vdaf
