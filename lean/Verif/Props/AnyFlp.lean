import Verif.Proofs.AnyFlpInst
import Verif.Proofs.AnyFlpCodec
import Verif.Props.Custom

/-!
# C79: Prio3 over an arbitrary FLP

`Prio3` and `run_flp` work with every FLP that satisfies the contract of the abstract class `Flp`, not only with
`FlpBBCGGI19`: `Spec.FlpFor` states the contract.
-/

set_option linter.unusedSectionVars false

namespace Vdaf
variable {F : Type} [NttField F] {Meas Agg : Type} {prims : Prims} {fuel : ℕ}

/-! ## The FLPs -/

/-- C79: `FlpBBCGGI19` with a circuit for the task `T` is an FLP for `T`, which raises only if a test point is a root of
unity. -/
theorem C79_bbcggi19 {V : Valid F Meas Agg} {T : Spec.Task Meas Agg} (h : Spec.Computes V T) {n : ℕ}
    (hn : V.proofLen = .ok n) : Spec.FlpFor (flpBBCGGI19 V n) (Spec.rootAbort V) T := bbcggi19_for h hn

/-- C79: and it rejects invalid measurements: at most `B` of `MODULUS` choices of each test point let one pass. -/
theorem C79_bbcggi19_rejects {V : Valid F Meas Agg} (hV : Spec.Circuit V) {n : ℕ} (hn : V.proofLen = .ok n)
    {meas jr : List F} (hmeas : meas.length = V.measLen) (hjr : jr.length = V.jointRandLen)
    (hinv : ¬ Spec.Accepts V meas jr) (B : ℕ) (hB : 1 ≤ B)
    (hB' : ∀ g c p, (g, c) ∈ List.zip V.gadgets V.gadgetCalls → wirePolyLen c = .ok p → g.degree * (p - 1) ≤ B) :
    Spec.FlpRejects (flpBBCGGI19 V n) (B * PyField.modulus F ^ (V.queryRandLen - 1)) meas jr :=
  bbcggi19_rejects (circuit_iff.1 hV) hn hmeas hjr hinv B hB hB'

/-- C79: Prio3 with `FlpBBCGGI19` as modelled in `Verif.Model.Prio3` is an instance of Prio3 over an arbitrary FLP, so
all that is proved about the former holds of this instance of the latter. -/
theorem C79_bbcggi19_same {X : Xof} (P : Prio3 X F Meas Agg) :
    (⟨P.id, P.shares, P.proofs, flpBBCGGI19 P.flp P.proofLen⟩ : Prio3Of X F Meas Agg).vdaf = P.vdaf := rfl

/-- C79: the constructors agree. -/
theorem C79_bbcggi19_init {X : Xof} {id shares proofs : ℕ} {V : Valid F Meas Agg} {P : Prio3 X F Meas Agg}
    (h : Prio3.init id X shares V proofs = .ok P) :
    Prio3Of.init id X shares (flpBBCGGI19 V P.proofLen) proofs =
      .ok ⟨P.id, P.shares, P.proofs, flpBBCGGI19 P.flp P.proofLen⟩ := by
  obtain ⟨pl, h1, h2, h3, rfl⟩ := Prio3.init_ok.1 h
  exact Prio3Of.init_ok.2 ⟨h2, h3, rfl⟩

/-- C79: `FlpTest` of the tests is an FLP for the sum of numbers from `0` to `4`, and never raises. -/
theorem C79_flp_test (hm : 5 ≤ PyField.modulus F) (j : ℕ) :
    Spec.FlpFor (FlpTest F j) (fun _ => none) (Spec.flpTestTask F) := flpTest_for hm j

/-- C79: but it is insecure, as its documentation says: every measurement passes for all choices of the query
randomness, with a proof that does not depend on the query randomness; and an honest prover's proof, and the verifier,
are the measurement. -/
theorem C79_flp_test_insecure (j : ℕ) :
    (∀ (k : ℕ) (meas jr : List F), Spec.FlpRejects (FlpTest F j) k meas jr → PyField.modulus F ^ 3 ≤ k) ∧
    ∀ (meas pr qr jr : List F) (N : ℕ), (FlpTest F j).prove meas pr jr = .ok meas ∧
      (FlpTest F j).query meas meas qr jr N = .ok meas := by
  refine ⟨fun k meas jr h => ?_, fun _ _ _ _ _ => ⟨rfl, rfl⟩⟩
  have hz : FlpTest.decide [(0 : F), 0] = true := by
    simp [FlpTest.decide, show PyField.toNat (0 : F) = 0 from by
      have := PyField.toNat_natCast (F := F) 0 (by have := one_lt_modulus F; omega)
      simpa using this]
  have := h [0, 0] rfl
  have hall : {queryRand : Fin (FlpTest F j).queryRandLen → F | ∃ v,
      (FlpTest F j).query meas [0, 0] (List.ofFn queryRand) jr 1 = .ok v ∧ (FlpTest F j).decide v = .ok true} =
      Set.univ := by
    ext qr
    simp only [Set.mem_ofPred_eq, Set.mem_univ, iff_true]
    exact ⟨[0, 0], rfl, congrArg Except.ok hz⟩
  rw [hall, Set.ncard_univ, Nat.card_fun, Nat.card_eq_fintype_card, Nat.card_eq_fintype_card, Fintype.card_fin,
    card_eq] at this
  exact this

-- the hypotheses are met
example : 5 ≤ PyField.modulus Field128 ∧ 5 ≤ PyField.modulus Field64 := by decide +kernel
example : Spec.Computes (MultiGadget Field64) Spec.multiGadgetTask ∧
    (MultiGadget Field64).proofLen = .ok 14 := ⟨MultiGadget.computes (by decide +kernel), by decide +kernel⟩
example (m : Int) (h : 0 ≤ m ∧ m < 5) : (Spec.flpTestTask Field128).valid m := h

/-! ## `run_flp` -/

/-- C79: `run_flp` gives the same result for every number of shares and every choice of the shares: it is what the
verifier would decide on the measurement and the proof themselves. -/
theorem C79_run_flp {Φ : FlpImpl F Meas Agg} {abort : List F → Option Err} (L : Spec.FlpLaws Φ abort)
    {meas jr pr qr : List F} (hmeas : meas.length = Φ.measLen) (hjr : jr.length = Φ.jointRandLen)
    (hpr : pr.length = Φ.proveRandLen) (hqr : qr.length = Φ.queryRandLen)
    (N : ℕ) (hN : 1 ≤ N) (hN' : N < PyField.modulus F)
    (measRands proofRands : List (List F)) (h1 : measRands.length = N - 1)
    (h2 : ∀ r ∈ measRands, r.length = Φ.measLen) (h3 : proofRands.length = N - 1)
    (h4 : ∀ r ∈ proofRands, r.length = Φ.proofLen) :
    runFlpOf Φ meas jr pr qr measRands proofRands N = (do
      let π ← Φ.prove meas pr jr
      let v ← Φ.query meas π qr jr 1
      Φ.decide v) := runFlpOf_eq L hmeas hjr hpr hqr N hN hN' measRands proofRands h1 h2 h3 h4

/-- C79: a valid measurement passes, unless the FLP raises. -/
theorem C79_run_flp_complete {Φ : FlpImpl F Meas Agg} {abort : List F → Option Err} (L : Spec.FlpLaws Φ abort)
    {meas jr pr qr : List F} (hmeas : meas.length = Φ.measLen) (hc : Spec.FlpComplete Φ meas)
    (hjr : jr.length = Φ.jointRandLen)
    (hpr : pr.length = Φ.proveRandLen) (hqr : qr.length = Φ.queryRandLen)
    (N : ℕ) (hN : 1 ≤ N) (hN' : N < PyField.modulus F)
    (measRands proofRands : List (List F)) (h1 : measRands.length = N - 1)
    (h2 : ∀ r ∈ measRands, r.length = Φ.measLen) (h3 : proofRands.length = N - 1)
    (h4 : ∀ r ∈ proofRands, r.length = Φ.proofLen) :
    (abort qr = none ∧ runFlpOf Φ meas jr pr qr measRands proofRands N = .ok true) ∨
    ∃ e, abort qr = some e ∧ runFlpOf Φ meas jr pr qr measRands proofRands N = .error e := by
  rw [C79_run_flp L hmeas hjr hpr hqr N hN hN' measRands proofRands h1 h2 h3 h4]
  obtain ⟨π, hπ, hl⟩ := L.prove _ _ _ hmeas hpr hjr
  have hone : ∀ u : List F, Spec.IsSum (fun _ : Fin 1 => u) u := fun u => ⟨fun _ => rfl, fun j => by simp⟩
  rw [hπ]
  simp only [Except.ok_bind']
  rcases L.query 1 _ _ _ _ qr jr le_rfl (one_lt_modulus F) (hone meas) (hone π) hmeas hl hqr hjr with
    ⟨e, ha, hq, -⟩ | ⟨ha, v, -, hq, -⟩
  · exact .inr ⟨e, ha, by rw [hq]; rfl⟩
  · refine .inl ⟨ha, ?_⟩
    rw [hq]
    exact hc _ _ _ _ _ hpr hqr hjr hπ hq

/-- C79: `run_flp` with `FlpTest`, on lists of any length: it returns `True` exactly if there are two elements, which
are equal, and less than 5. -/
theorem C79_flp_test_run_flp {j : ℕ} {meas : List F} (jr pr qr : List F) (measRands proofRands : List (List F))
    (h1 : ∀ r ∈ measRands, r.length = meas.length) (h2 : ∀ r ∈ proofRands, r.length = meas.length)
    (h3 : measRands.length = proofRands.length) (N : ℕ) :
    ∃ b, runFlpOf (FlpTest F j) meas jr pr qr measRands proofRands N = .ok b ∧
      (b = true ↔ ∃ x, meas = [x, x] ∧ PyField.toNat x < 5) := by
  refine ⟨_, flpTest_runFlp jr pr qr measRands proofRands h1 h3 h2 N, ?_⟩
  unfold FlpTest.decide
  split
  · next x y =>
    simp only [Bool.and_eq_true, decide_eq_true_eq, List.cons.injEq, and_true]
    constructor
    · rintro ⟨rfl, h⟩; exact ⟨x, ⟨rfl, rfl⟩, h⟩
    · rintro ⟨z, ⟨rfl, rfl⟩, h⟩; exact ⟨rfl, h⟩
  · next h =>
    constructor
    · intro h; cases h
    · rintro ⟨x, rfl, -⟩; exact absurd rfl (h x x)

-- tests/test_flp.py:59-63, with some randomness
example : runFlpOf (FlpTest Field128 1) [0, 0] [1] [2, 3] [4, 5, 6] [[7, 8], [9, 10]] [[1, 2], [3, 4]] 3 = .ok true ∧
    runFlpOf (FlpTest Field128 1) [4, 4] [1] [2, 3] [4, 5, 6] [[7, 8], [9, 10]] [[1, 2], [3, 4]] 3 = .ok true ∧
    runFlpOf (FlpTest Field128 1) [1337] [1] [2, 3] [4, 5, 6] [[7], [9]] [[1], [3]] 3 = .ok false ∧
    runFlpOf (FlpTest Field128 1) [5, 5] [1] [2, 3] [4, 5, 6] [[7, 8], [9, 10]] [[1, 2], [3, 4]] 3 = .ok false := by
  decide +kernel

/-! ## Prio3 -/

/-- C79: an honest execution of Prio3 over any FLP for the task `T` returns the aggregate of the batch; the only
exceptions are those of the sampler and of the FLP (compare `C23_end_to_end`). -/
theorem C79_end_to_end {P : Prio3Of (XofTurboShake128 prims fuel) F Meas Agg} (I : Spec.FlpInstance P)
    {T : Spec.Task Meas Agg} {abort : List F → Option Err} (C : Spec.FlpFor P.flp abort T)
    (verifyKey ctx : Bytes) (hkey : verifyKey.length = 32)
    (hctx : ctx.length + 8 < 2 ^ 16) (batch : List (Meas × Bytes × Bytes))
    (hbatch : ∀ m ∈ batch, T.valid m.1 ∧ m.2.1.length = 16 ∧ m.2.2.length = P.randSize)
    (hsup : T.supported (batch.map Prod.fst)) :
    runVdaf P.vdaf verifyKey () ctx batch = .ok (T.agg (batch.map Prod.fst)) ∨
    ∃ e, runVdaf P.vdaf verifyKey () ctx batch = .error e ∧
      Spec.Of.HonestFailure P abort verifyKey ctx (batch.map fun m => m.2.1) e := by
  rcases (flpRun I C hctx hkey hbatch hsup).cases with ⟨R, h1, rfl⟩ | h
  · exact .inl h1
  · exact .inr h

/-- C79: robustness.  For a report whose measurement the FLP rejects for all but `k` choices of the query randomness of
the proofs `S`, whatever the proofs, few choices of the query randomness let the Aggregators accept it (compare
`C25_robustness`).  The Leader's share has the lengths that `decode_input_share` ensures. -/
theorem C79_robustness {P : Prio3Of (XofTurboShake128 prims fuel) F Meas Agg} (I : Spec.FlpInstance P)
    {abort : List F → Option Err} (L : Spec.FlpLaws P.flp abort) {ctx nonce : Bytes} {ish : ℕ → Prio3InputShare F}
    {ms ps : ℕ → List F} {bl : ℕ → Option Bytes} {seed : Option Bytes} {jrs : List F}
    (hexp : ∀ j < P.shares, Spec.Of.Expands P ctx j (ish j) (ms j) (ps j) (bl j))
    (hjr : Spec.Of.JointRandOf P ctx nonce ms bl seed jrs) (S : Finset (Fin P.proofs))
    (hshape : Spec.Of.InputShareShape P 0 (ish 0)) {k : ℕ}
    (hinv : ∀ i ∈ S, ∀ meas, Spec.IsSum (fun j : Fin P.shares => ms j) meas →
      Spec.FlpRejects P.flp k meas (Spec.piece P.flp.jointRandLen jrs i)) :
    ∃ Bad : Set (Fin P.proofs → Fin P.flp.queryRandLen → F),
      Bad.ncard ≤ k ^ S.card * (PyField.modulus F ^ P.flp.queryRandLen) ^ (P.proofs - S.card) ∧
      ∀ verifyKey pub st sh msg, Spec.Of.VerifySucceeds P verifyKey ctx nonce pub ish st sh msg →
        ∃ q ∈ Bad, Spec.Of.queryRands P verifyKey ctx nonce =
          .ok ((List.ofFn fun i => List.ofFn (q i)).flatten) :=
  Prio3Of.robust (I.wf L) hexp hjr S (fun ms0 ps0 bl0 h => by
    rw [h] at hshape; exact ⟨hshape.2.1, hshape.2.2.1⟩) hinv

/-- C79: if verification succeeds, all Aggregators used the joint randomness, and the output shares, that the input
shares determine (compare `C24_joint_rand_bound`). -/
theorem C79_joint_rand_bound {X : Xof} {P : Prio3Of X F Meas Agg} (hN : 0 < P.shares) {verifyKey ctx nonce : Bytes}
    {pub : Option (List Bytes)} {ish : ℕ → Prio3InputShare F} {st sh : ℕ → List F × Option Bytes}
    {msg : Option Bytes} (h : Spec.Of.VerifySucceeds P verifyKey ctx nonce pub ish st sh msg) :
    ∃ (ms ps : ℕ → List F) (bl : ℕ → Option Bytes) (jrs : List F),
      (∀ j < P.shares, Spec.Of.Expands P ctx j (ish j) (ms j) (ps j) (bl j)) ∧
      Spec.Of.JointRandOf P ctx nonce ms bl msg jrs ∧
      ∀ j < P.shares, (st j).2 = msg ∧ P.flp.truncate (ms j) = .ok (st j).1 := by
  obtain ⟨ms, ps, bl, jrs, qrs, h1, h2, -, h4⟩ := Prio3Of.joint_of_success hN h
  exact ⟨ms, ps, bl, jrs, fun j hj => Prio3Of.expandInputShare_ok (h1 j hj), h2.spec,
    fun j hj => ⟨(h4 j hj).1, (h4 j hj).2.1⟩⟩

/-- C79: the encodings.  Decoding a string succeeds exactly with the well-formed message that encodes to it (compare C26
and C27). -/
theorem C79_codecs {X : Xof} (P : Prio3Of X F Meas Agg) :
    (∀ (j : ℕ) (b : Bytes) (s : Prio3InputShare F), P.vdaf.decodeInputShare j b = .ok s ↔
      Spec.Of.InputShareShape P j s ∧ P.vdaf.encodeInputShare s = .ok b) ∧
    (∀ st (b : Bytes) s, P.vdaf.decodeVerifierShare st b = .ok s ↔
      Spec.Of.VerifierShareShape P s ∧ P.vdaf.encodeVerifierShare s = .ok b) ∧
    (0 < P.flp.jointRandLen → ∀ (b : Bytes) s, P.vdaf.decodePublicShare b = .ok s ↔
      Spec.Of.PublicShareShape P s ∧ P.vdaf.encodePublicShare s = .ok b) :=
  ⟨fun _ _ _ => Prio3Of.decodeInputShare_ok, fun st _ _ => Prio3Of.decodeVerifierShare_ok (st := st),
    fun h _ _ => Prio3Of.decodePublicShare_ok h⟩

/-- C79 for `Prio3FlpTest` of the tests, with and without joint randomness: the sum, or the sampler ran out. -/
theorem C79_prio3_flp_test {jointRandLen : ℕ} {P : Prio3Of (XofTurboShake128 prims fuel) Field128 Int Nat}
    (hP : Prio3FlpTest prims fuel jointRandLen = .ok P) (verifyKey ctx : Bytes) (hkey : verifyKey.length = 32)
    (hctx : ctx.length + 8 < 2 ^ 16) (batch : List (Int × Bytes × Bytes))
    (hbatch : ∀ m ∈ batch, (0 ≤ m.1 ∧ m.1 < 5) ∧ m.2.1.length = 16 ∧
      m.2.2.length = if jointRandLen = 0 then 64 else 128)
    (hsmall : (batch.map fun m => m.1.toNat).sum < PyField.modulus Field128) :
    runVdaf P.vdaf verifyKey () ctx batch = .ok (batch.map fun m => m.1.toNat).sum ∨
    runVdaf P.vdaf verifyKey () ctx batch = .error .fuel := by
  have hP' := hP
  obtain ⟨h2, h3, rfl⟩ := Prio3Of.init_ok.1 hP
  have I : Spec.FlpInstance (⟨0xFFFFFFFF, 2, 1, FlpTest Field128 jointRandLen⟩ :
      Prio3Of (XofTurboShake128 prims fuel) Field128 Int Nat) :=
    ⟨hP', by norm_num, by norm_num, show 2 < PyField.modulus Field128 by decide +kernel⟩
  have hr : (⟨0xFFFFFFFF, 2, 1, FlpTest Field128 jointRandLen⟩ :
      Prio3Of (XofTurboShake128 prims fuel) Field128 Int Nat).randSize = if jointRandLen = 0 then 64 else 128 := by
    change (if jointRandLen > 0 then 2 + 2 else 2) * 32 = _
    rcases Nat.eq_zero_or_pos jointRandLen with rfl | h
    · rfl
    · rw [if_pos h, if_neg (by omega)]
  have := C79_end_to_end I (C79_flp_test (by decide +kernel) jointRandLen) verifyKey ctx hkey hctx batch
    (by rw [hr]; exact hbatch) (by simpa [Spec.flpTestTask, List.map_map, Function.comp_def] using hsmall)
  rcases this with h | ⟨e, he, hf⟩
  · left
    simpa [Spec.flpTestTask, List.map_map, Function.comp_def] using h
  · rcases hf with hf | ⟨_, -, _, -, _, -, h⟩
    · rw [hf.1] at he; exact .inr he
    · exact absurd h (by simp)

-- tests/test_vdaf_prio3.py:59-67 with a toy primitive (two of the measurements), with and without joint randomness
example : (do
    let P ← Prio3FlpTest toyPrims 40 1
    runVdaf P.vdaf (List.replicate 32 1) () [1]
      [(3, List.replicate 16 3, List.replicate 128 7), (4, List.replicate 16 4, List.replicate 128 9)]) = .ok 7 := by
  decide +kernel
example : (do
    let P ← Prio3FlpTest toyPrims 40 0
    runVdaf P.vdaf (List.replicate 32 1) () [1]
      [(3, List.replicate 16 3, List.replicate 64 7), (4, List.replicate 16 4, List.replicate 64 9)]) = .ok 7 := by
  decide +kernel
-- a measurement out of range is rejected if the Client is honest otherwise
example : (do
    let P ← Prio3FlpTest toyPrims 40 0
    runVdaf P.vdaf (List.replicate 32 1) () [1] [(5, List.replicate 16 3, List.replicate 64 7)]) =
    .error (.value "proof verifier check failed") := by decide +kernel

end Vdaf
