import Verif.Proofs.CustomInst
import Verif.Props.Fuel

/-!
# Property C55: circuits supplied by the user

The FLP and Prio3 keep their promises for every validity circuit that meets the requirements stated in
`Verif/Spec/Circuit.lean`, not only for the circuits of the library.

* `Spec.Circuit V`: the evaluation of `V` does what its attributes say and can be done on shares, and the gadgets are
  polynomials of the degree they say;
* `Spec.Computes V T`: moreover, `encode`, `truncate` and `decode` are as the task `T` demands;
* `Spec.CustomInstance P T`: `P` is an instance of Prio3 over such a circuit.
-/

namespace Vdaf
open Finset

variable {F : Type} [NttField F] {Meas Agg : Type} {prims : Prims} {fuel : ℕ}

/-- C55: the circuits of the library meet the requirements. -/
theorem C55_library {V : Valid F Meas Agg} {fn : Spec.Fun Meas Agg} (hV : Spec.Library F V fn)
    (hfit : Spec.Fits V) : Spec.Computes V (fn.task F) := library_computes hV hfit

/-- C55: the gadgets of the library meet the requirements. -/
theorem C55_gadgets {calls : ℕ} (hc : 1 ≤ calls) {g : Gadget F} (hg : Spec.GadgetFor F calls g) {p : ℕ}
    (hp : wirePolyLen calls = .ok p) (hcap : gadgetPolyLen g.degree p ≤ NttField.genOrder F) :
    Spec.GadgetLaw g p ∧ 1 ≤ g.arity ∧ 1 ≤ g.degree := by
  rw [wirePolyLen_ok.1 hp] at hcap ⊢
  rw [gadgetLaw_iff]
  exact gadgetFor_lawful hc hg hcap

/-- C55: a circuit with a gadget of degree three. -/
theorem C55_higher_degree (hm : 3 < PyField.modulus F) (hcap : 4 ≤ NttField.genOrder F) :
    ∃ V, HigherDegree F = .ok V ∧ Spec.Computes V (Spec.higherDegreeTask F) := HigherDegree.computes hm hcap

/-- C55: a circuit with two gadgets, called a different number of times on inputs that depend on each other. -/
theorem C55_multi_gadget (hcap : 8 ≤ NttField.genOrder F) :
    Spec.Computes (MultiGadget F) Spec.multiGadgetTask := MultiGadget.computes hcap

/-- C55: a circuit whose `decode` uses the number of measurements. -/
theorem C55_average {max : ℕ} (hmax : 0 < max) {V : Valid F Int Nat} (hV : TestAverage F max = .ok V)
    (hfit : Spec.Fits V) : Spec.Computes V (Spec.averageTask F max) := TestAverage.computes hmax hV hfit

-- the hypotheses are met by the fields of the library
example : 3 < PyField.modulus Field64 ∧ 8 ≤ NttField.genOrder Field64 ∧
    3 < PyField.modulus Field128 ∧ 8 ≤ NttField.genOrder Field128 := by decide +kernel
example : ∃ V, TestAverage Field128 10 = .ok V ∧ Spec.Fits V :=
  ⟨_, rfl, fits_single rfl rfl (by decide)⟩

/-! ## The FLP -/

/-- C55: completeness and the driver `run_flp` (compare `C17_run_flp`). -/
theorem C55_run_flp {V : Valid F Meas Agg} (hV : Spec.Circuit V) {meas jr pr qr : List F}
    (hmeas : meas.length = V.measLen) (hjr : jr.length = V.jointRandLen)
    (hpr : pr.length = V.proveRandLen) (hqr : qr.length = V.queryRandLen)
    (hacc : Spec.Accepts V meas jr) (N : ℕ) (hN : 1 ≤ N) (hN' : N < PyField.modulus F)
    (measRands proofRands : List (List F)) (h1 : measRands.length = N - 1)
    (h2 : ∀ r ∈ measRands, r.length = V.measLen) (h3 : proofRands.length = N - 1)
    (h4 : ∀ r ∈ proofRands, V.proofLen = .ok r.length) :
    (¬ Spec.BadTestPoint V qr ∧ runFlp V meas jr pr qr measRands proofRands N = .ok true) ∨
    (Spec.BadTestPoint V qr ∧
      runFlp V meas jr pr qr measRands proofRands N = .error rootOfUnityErr) := by
  have := (circuit_iff.1 hV).runFlp_eq hmeas hjr hpr hqr hacc N hN hN' measRands proofRands h1 h2 h3 h4
  by_cases hb : Spec.BadTestPoint V qr
  · exact .inr ⟨hb, by rw [this, if_pos hb]⟩
  · exact .inl ⟨hb, by rw [this, if_neg hb]⟩

/-- C55: `query` is linear (compare `C18_query_linear`). -/
theorem C55_query_linear {V : Valid F Meas Agg} (hV : Spec.Circuit V) {N : ℕ} (hN : 1 ≤ N)
    (hN' : N < PyField.modulus F) {ms πs : Fin N → List F} {meas π qr jr : List F}
    (hms : Spec.IsSum ms meas) (hπs : Spec.IsSum πs π)
    (hmeas : meas.length = V.measLen) (hπ : V.proofLen = .ok π.length)
    (hqr : qr.length = V.queryRandLen) (hjr : jr.length = V.jointRandLen) :
    (V.query meas π qr jr 1 = .error rootOfUnityErr ∧
      ∀ i, V.query (ms i) (πs i) qr jr N = .error rootOfUnityErr) ∨
    ∃ v vs, V.query meas π qr jr 1 = .ok v ∧ (∀ i, V.query (ms i) (πs i) qr jr N = .ok (vs i)) ∧
      Spec.IsSum vs v := by
  have h := circuit_iff.1 hV
  exact h.query_sum hN hN' hms hπs hmeas (h.proofLen_iff.1 hπ) hqr hjr

/-- C55: soundness, on shares (compare `C19_soundness_shares`; with one share, `C19_soundness`). -/
theorem C55_soundness {V : Valid F Meas Agg} (hV : Spec.Circuit V) {N : ℕ} (hN : 1 ≤ N)
    (hN' : N < PyField.modulus F) {ms πs : Fin N → List F} {meas jr π : List F}
    (hms : Spec.IsSum ms meas) (hπs : Spec.IsSum πs π)
    (hmeas : meas.length = V.measLen) (hjr : jr.length = V.jointRandLen)
    (hinv : ¬ Spec.Accepts V meas jr)
    (hπ : V.proofLen = .ok π.length) (B : ℕ) (hB : 1 ≤ B)
    (hB' : ∀ g c p, (g, c) ∈ List.zip V.gadgets V.gadgetCalls → wirePolyLen c = .ok p →
      g.degree * (p - 1) ≤ B) :
    Set.ncard {qr : Fin V.queryRandLen → F | ∃ (vs : Fin N → List F) (v : List F),
      (∀ i, V.query (ms i) (πs i) (List.ofFn qr) jr N = .ok (vs i)) ∧ Spec.IsSum vs v ∧
        V.decide v = .ok true} ≤
      B * PyField.modulus F ^ (V.queryRandLen - 1) := by
  have h := circuit_iff.1 hV
  obtain ⟨out, log, -, -, -, -, hout⟩ := h.evalPlain_eq hmeas hjr le_rfl (one_lt_modulus F)
  refine h.sound_shares hN hN' hms hπs hmeas hjr hout ?_ hπ B hB hB'
  by_contra hc
  push Not at hc
  exact hinv ⟨out, hout, hc⟩

/-- C55: zero knowledge (compare `C20_zero_knowledge`). -/
theorem C55_zero_knowledge {V : Valid F Meas Agg} (hV : Spec.Circuit V) {meas jr qr : List F}
    (hmeas : meas.length = V.measLen) (hjr : jr.length = V.jointRandLen)
    (hqr : qr.length = V.queryRandLen) (hacc : Spec.Accepts V meas jr)
    (hgood : ¬ Spec.BadTestPoint V qr) :
    ∃ f : (Fin V.proveRandLen → F) ≃ (Fin V.proveRandLen → F), ∀ pr,
      ∃ π s, V.prove meas (List.ofFn pr) jr = .ok π ∧
        Spec.simulate V.gadgets (List.ofFn (f pr)) = .ok s ∧
        V.query meas π qr jr 1 = .ok (0 :: s) := by
  obtain ⟨out, h1, h2⟩ := hacc
  exact (circuit_iff.1 hV).zk hmeas hjr h1 h2 hqr hgood

/-- C55: `prove` never fails, `decide` never fails, and `query` fails exactly if a test point is a root of unity
(compare `C21_lengths` and `C22_query_aborts_iff`). -/
theorem C55_total {V : Valid F Meas Agg} (hV : Spec.Circuit V) :
    (∀ meas pr jr : List F, meas.length = V.measLen → pr.length = V.proveRandLen →
      jr.length = V.jointRandLen →
      ∃ π, V.prove meas pr jr = .ok π ∧ V.proofLen = .ok π.length) ∧
    (∀ (meas π qr jr : List F) (N : ℕ), meas.length = V.measLen → V.proofLen = .ok π.length →
      qr.length = V.queryRandLen → jr.length = V.jointRandLen → 1 ≤ N →
      N < PyField.modulus F →
      (Spec.BadTestPoint V qr ∧ V.query meas π qr jr N = .error rootOfUnityErr) ∨
      (¬ Spec.BadTestPoint V qr ∧ ∃ v, V.query meas π qr jr N = .ok v ∧ v.length = V.verifierLen)) ∧
    (∀ v : List F, v.length = V.verifierLen → ∃ b, V.decide v = .ok b) := by
  have h := circuit_iff.1 hV
  exact ⟨fun meas pr jr h1 h2 h3 => h.prove_total h1 h2 h3,
    fun meas π qr jr N h1 h2 h3 h4 h5 h6 => h.query_total h1 h2 h3 h4 h5 h6, fun v hv => h.decide_total v hv⟩

-- a complete run with three shares of a circuit with two gadgets, and of a circuit of degree three
example : runFlp (MultiGadget Field64) [0] [] [5, 7, 1, 2] [11, 12] [[1234], [5]]
    [List.replicate 14 3, List.replicate 14 4] 3 = .ok true := by decide +kernel
example : (do
    let V ← HigherDegree Field64
    runFlp V [2] [] [5] [11] [[1234], [5]] [List.replicate 5 3, List.replicate 5 4] 3) = .ok true := by
  decide +kernel
-- dishonest measurements
example : runFlp (MultiGadget Field64) [1] [] [5, 7, 1, 2] [11, 12] [[1234], [5]]
    [List.replicate 14 3, List.replicate 14 4] 3 = .ok false := by decide +kernel
example : (do
    let V ← HigherDegree Field64
    runFlp V [3] [] [5] [11] [[1234], [5]] [List.replicate 5 3, List.replicate 5 4] 3) = .ok false := by
  decide +kernel

/-- A circuit that accepts only `1`, but does not divide the constant by the number of shares. -/
def badCircuit : Valid Field64 Int Nat := { Count Field64 with
  eval := fun meas jointRand _ => do
    Prog.ofRes (checkValidEval 1 0 meas jointRand)
    let m ← Prog.ofRes (getI meas 0)
    let y ← Prog.call 0 [m, m] .pure
    return [y - 1] }

/-- C55: the requirement that the evaluation can be done on shares is needed.  Without it, a valid measurement is
rejected. -/
theorem C55_shares_needed : Spec.Accepts badCircuit [1] [] ∧
    runFlp badCircuit [1] [] [5, 7] [11] [] [] 1 = .ok true ∧
    runFlp badCircuit [1] [] [5, 7] [11] [[1234]] [[1, 2, 3, 4, 5]] 2 = .ok false :=
  ⟨⟨[0], by decide +kernel, by simp⟩, by decide +kernel, by decide +kernel⟩

/-! ## Prio3 -/

/-- C55: an honest execution of Prio3 over a user-supplied circuit returns the aggregate (compare
`C23_end_to_end`). -/
theorem C55_end_to_end {P : Prio3 (XofTurboShake128 prims fuel) F Meas Agg} {T : Spec.Task Meas Agg}
    (I : Spec.CustomInstance P T) (verifyKey ctx : Bytes) (hkey : verifyKey.length = 32)
    (hctx : ctx.length + 8 < 2 ^ 16) (batch : List (Meas × Bytes × Bytes))
    (hbatch : ∀ m ∈ batch, T.valid m.1 ∧ m.2.1.length = 16 ∧ m.2.2.length = P.randSize)
    (hsup : T.supported (batch.map Prod.fst)) :
    runVdaf P.vdaf verifyKey () ctx batch = .ok (T.agg (batch.map Prod.fst)) ∨
    ∃ e, runVdaf P.vdaf verifyKey () ctx batch = .error e ∧
      Spec.HonestFailure P verifyKey ctx (batch.map fun m => m.2.1) e := by
  rcases (customRun I hctx hkey hbatch hsup).cases with ⟨R, h1, rfl⟩ | h
  · exact .inl h1
  · exact .inr h

/-- C55: robustness of Prio3 over a user-supplied circuit (compare `C25_robustness`). -/
theorem C55_robustness {P : Prio3 (XofTurboShake128 prims fuel) F Meas Agg} {T : Spec.Task Meas Agg}
    (I : Spec.CustomInstance P T) {ctx nonce : Bytes} {ish : ℕ → Prio3InputShare F}
    {ms ps : ℕ → List F} {bl : ℕ → Option Bytes} {seed : Option Bytes} {jrs : List F}
    (hexp : ∀ j < P.shares, Spec.Expands P ctx j (ish j) (ms j) (ps j) (bl j))
    (hjr : Spec.JointRandOf P ctx nonce ms bl seed jrs) (S : Finset (Fin P.proofs))
    (hinv : ∀ i ∈ S, ∀ meas, Spec.IsSum (fun j : Fin P.shares => ms j) meas →
      ¬ Spec.Accepts P.flp meas (Spec.piece P.flp.jointRandLen jrs i))
    (B : ℕ) (hB : 1 ≤ B)
    (hB' : ∀ g c p, (g, c) ∈ List.zip P.flp.gadgets P.flp.gadgetCalls → wirePolyLen c = .ok p →
      g.degree * (p - 1) ≤ B) :
    ∃ Bad : Set (Fin P.proofs → Fin P.flp.queryRandLen → F),
      Bad.ncard ≤ (B * PyField.modulus F ^ (P.flp.queryRandLen - 1)) ^ S.card *
        (PyField.modulus F ^ P.flp.queryRandLen) ^ (P.proofs - S.card) ∧
      ∀ verifyKey pub st sh msg, Spec.VerifySucceeds P verifyKey ctx nonce pub ish st sh msg →
        ∃ q ∈ Bad, Spec.queryRands P verifyKey ctx nonce =
          .ok ((List.ofFn fun i => List.ofFn (q i)).flatten) :=
  Prio3.robust I.wf hexp hjr S hinv B hB hB'

/-- C55 for `Prio3HigherDegree` of the tests. -/
theorem C55_prio3_higher_degree {shares : ℕ} {P : Prio3 (XofTurboShake128 prims fuel) Field64 Int Nat}
    (hP : Prio3HigherDegree prims fuel shares = .ok P) (verifyKey ctx : Bytes) (hkey : verifyKey.length = 32)
    (hctx : ctx.length + 8 < 2 ^ 16) (batch : List (Int × Bytes × Bytes))
    (hbatch : ∀ m ∈ batch, (m.1 = 0 ∨ m.1 = 1 ∨ m.1 = 2) ∧ m.2.1.length = 16 ∧ m.2.2.length = 32 * shares)
    (hsmall : (batch.map fun m => m.1.toNat).sum < PyField.modulus Field64) :
    runVdaf P.vdaf verifyKey () ctx batch = .ok (batch.map fun m => m.1.toNat).sum ∨
    ∃ e, runVdaf P.vdaf verifyKey () ctx batch = .error e ∧
      Spec.HonestFailure P verifyKey ctx (batch.map fun m => m.2.1) e := by
  obtain ⟨I, rfl, hj⟩ := instance_higherDegree hP
  have hr : P.randSize = 32 * P.shares := by
    simp [Prio3.randSize, Prio3.numSeeds, hj, XofTurboShake128, mul_comm]
  have := C55_end_to_end I verifyKey ctx hkey hctx batch (by rw [hr]; exact hbatch) (by
    simpa [Spec.higherDegreeTask, List.map_map, Function.comp_def] using hsmall)
  simpa [Spec.higherDegreeTask, List.map_map, Function.comp_def] using this

/-- C55 for `Prio3Average` of the tests. -/
theorem C55_prio3_average {shares max : ℕ} (hmax : 0 < max)
    {P : Prio3 (XofTurboShake128 prims fuel) Field128 Int Nat}
    (hP : Prio3Average prims fuel shares max = .ok P) (verifyKey ctx : Bytes) (hkey : verifyKey.length = 32)
    (hctx : ctx.length + 8 < 2 ^ 16) (batch : List (Int × Bytes × Bytes))
    (hbatch : ∀ m ∈ batch, (0 ≤ m.1 ∧ m.1 ≤ max) ∧ m.2.1.length = 16 ∧ m.2.2.length = 32 * shares)
    (hne : batch ≠ []) (hsmall : (batch.map fun m => m.1.toNat).sum < PyField.modulus Field128) :
    runVdaf P.vdaf verifyKey () ctx batch = .ok ((batch.map fun m => m.1.toNat).sum / batch.length) ∨
    ∃ e, runVdaf P.vdaf verifyKey () ctx batch = .error e ∧
      Spec.HonestFailure P verifyKey ctx (batch.map fun m => m.2.1) e := by
  obtain ⟨I, rfl, hj⟩ := instance_average hmax hP
  have hr : P.randSize = 32 * P.shares := by
    simp [Prio3.randSize, Prio3.numSeeds, hj, XofTurboShake128, mul_comm]
  have := C55_end_to_end I verifyKey ctx hkey hctx batch (by rw [hr]; exact hbatch) (by
    simpa [Spec.averageTask, List.map_map, Function.comp_def, hne] using hsmall)
  simpa [Spec.averageTask, List.map_map, Function.comp_def] using this

-- complete runs with a toy primitive
example : (do
    let P ← Prio3HigherDegree toyPrims 40 2
    runVdaf P.vdaf (List.replicate 32 1) () [1]
      [(2, List.replicate 16 3, List.replicate 64 7), (1, List.replicate 16 4, List.replicate 64 9)]) = .ok 3 := by
  decide +kernel
example : (do
    let P ← Prio3Average toyPrims 40 2 10
    runVdaf P.vdaf (List.replicate 32 1) () [1]
      [(9, List.replicate 16 3, List.replicate 64 7), (2, List.replicate 16 4, List.replicate 64 9)]) = .ok 5 := by
  decide +kernel

end Vdaf
