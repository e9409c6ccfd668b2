import Verif.Proofs.PingPongRobustPoplar
import Verif.Props.PingPongPoplar
import Verif.Props.PingPongAttack

/-!
# Property C75: robustness in the ping-pong topology

The Leader and the Helper are honest and run the functions of `vdaf_ping_pong.py`.  Malicious Clients, together with a
malicious Collector, make `q` moves, each of which either evaluates TurboSHAKE128 at an input of their choice or has a
report, which is a string of bytes, verified for an encoded aggregation parameter of their choice, and each of which may
depend on everything they have learned before.  They win if, for some aggregation parameter and some of the reports that
were accepted for it, the aggregate result is not that of as many valid measurements (Prio3), or not a count in which each
report counts for at most one prefix, and once (Poplar1).  TurboSHAKE128 is random at the inputs in a finite set `S`;
elsewhere it is an arbitrary fixed function.  AES is an arbitrary fixed function.  The verification key is random.
-/

namespace Vdaf
open Spec WireGame
section
variable {F : Type} [NttField F] {Meas Agg : Type} {prims : Prims} {fuel : ℕ}

/-- C75 for the circuits supplied by users, if the measurements accepted by the circuit, but with probability `ε` over the
joint randomness, are truncated as the encodings of valid measurements are, and batches of `q` reports are supported. -/
theorem C75_prio3_custom {P : Prio3 (XofTurboShake128 prims fuel) F Meas Agg} {T : Spec.Task Meas Agg}
    (I : Spec.CustomInstance P T) (h2 : P.shares = 2)
    (hsize : PyField.encSize F * (P.flp.verifierLen * P.proofs) + 32 < 2 ^ 32) (hp : 0 < P.proofs) (hg : P.flp.gadgets ≠ [])
    {ctx : Bytes} (hctx : ctx.length + 8 < 2 ^ 16) {S : Set Bytes} (hfin : S.Finite)
    (hS : ∀ verifyKey : Bytes, verifyKey.length = 32 → oracleInputs P verifyKey ctx ⊆ S) {N : ℕ}
    (hN : fuel * PyField.encSize F ≤ N) (hN' : 32 ≤ N) {valid : List F → Prop} {ε : ℚ} (h0 : 0 ≤ ε)
    (hε : ∀ meas : List F, meas.length = P.flp.measLen → ¬ valid meas →
      (Set.ncard {jr : Fin P.flp.jointRandLen → F | Spec.Accepts P.flp meas (List.ofFn jr)} : ℚ) ≤
        ε * (PyField.modulus F : ℚ) ^ P.flp.jointRandLen)
    (hval : ∀ meas, meas.length = P.flp.measLen → valid meas →
      ∃ m e, T.valid m ∧ P.flp.encode m = .ok e ∧ P.flp.truncate e = P.flp.truncate meas) {q : ℕ}
    (hsup : ∀ ms : List Meas, ms.length ≤ q → (∀ m ∈ ms, T.valid m) → T.supported ms) (σ : WireStrategy) :
    wireWinProbability (fun O => (runWith P O).vdaf) prims ctx (fun _ => AggregateOfValid T) σ q S N ≤
      q * (ε + paddedSoundness P.flp) ^ P.proofs + luckBound P q + q / 2 ^ 256 :=
  (prio3_probability I h2 hsize hval hsup σ hfin N).trans
    (C68_robustness_custom I hp hg hctx hfin hS hN hN' h0 hε _ q)

/-! ## The circuits of the library -/

/-- A bound for the entries of the sums -/
private theorem sum_le {α : Type} (f : α → ℕ) (c : ℕ) (l : List α) (h : ∀ x ∈ l, f x ≤ c) : (l.map f).sum ≤ l.length * c := by
  have := List.sum_le_card_nsmul (l.map f) c (fun y hy => by
    obtain ⟨x, hx, rfl⟩ := List.mem_map.1 hy
    exact h x hx)
  simpa using this

/-- The truncated encoding of a measurement is given by the aggregate of the batch that consists of it. -/
theorem truncate_single {V : Valid F Meas Agg} {fn : Spec.Fun Meas Agg} (H : EncFacts V fn) {m : Meas}
    (hm : fn.valid m) {o : List F} (ht : fn.totals (fn.agg [m]) = o.map PyField.toNat) :
    ∃ e, V.encode m = .ok e ∧ V.truncate e = .ok o := by
  obtain ⟨ints, of, h1, h2, h3, h4⟩ := H.enc
  obtain ⟨e, k1, k2, k3⟩ := h1 m hm
  refine ⟨e, k1, ?_⟩
  rw [k3]
  congr 1
  rw [h4 [m] (by simpa using hm), h3 _ (by simp)] at ht
  have hl : V.outputLen = o.length := by simpa using congrArg List.length ht
  apply List.ext_getElem (by simpa using hl)
  intro i hi hi'
  have := congrArg (fun l => l[i]?) ht
  simp [tab, hl, hi'] at this
  rw [tab_getElem, this]
  exact PyField.natCast_toNat _

/-- C75 for `Count` -/
theorem C75_count {P : Prio3 (XofTurboShake128 prims fuel) F Int ℕ} (I : Spec.Instance P Spec.countFun)
    (hV : P.flp = Count F) (h2 : P.shares = 2)
    (hsize : PyField.encSize F * (P.flp.verifierLen * P.proofs) + 32 < 2 ^ 32) (hp : 0 < P.proofs) {ctx : Bytes}
    (hctx : ctx.length + 8 < 2 ^ 16) {S : Set Bytes} (hfin : S.Finite)
    (hS : ∀ verifyKey : Bytes, verifyKey.length = 32 → oracleInputs P verifyKey ctx ⊆ S) {N : ℕ}
    (hN : fuel * PyField.encSize F ≤ N) (hN' : 32 ≤ N) {q : ℕ} (hq : q < PyField.modulus F) (σ : WireStrategy) :
    wireWinProbability (fun O => (runWith P O).vdaf) prims ctx (fun _ => AggregateOfValid (Spec.countFun.task F)) σ q S N ≤
      q * paddedSoundness P.flp ^ P.proofs + q / 2 ^ 256 := by
  refine (prio3_probability I.custom h2 hsize (valid := fun meas => ∃ m, Spec.countFun.valid m ∧ P.flp.encode m = .ok meas)
    ?_ ?_ σ hfin N).trans (C68_count I hV hp hctx hfin hS hN hN' _ q)
  · rintro meas - ⟨m, h1, h2⟩
    exact ⟨m, meas, h1, h2, rfl⟩
  · intro ms hl hms n hn
    rw [List.mem_singleton.1 hn]
    have := sum_le Int.toNat 1 ms fun m hm => by rcases hms m hm with rfl | rfl <;> decide
    show (ms.map Int.toNat).sum < _
    omega

/-- C75 for `Sum` -/
theorem C75_sum {max : ℕ} {P : Prio3 (XofTurboShake128 prims fuel) F Int ℕ} (I : Spec.Instance P (Spec.sumFun max))
    (hmax : 0 < max) (hV : Sum F max = .ok P.flp) (h2 : P.shares = 2)
    (hsize : PyField.encSize F * (P.flp.verifierLen * P.proofs) + 32 < 2 ^ 32) (hp : 0 < P.proofs) {ctx : Bytes}
    (hctx : ctx.length + 8 < 2 ^ 16) {S : Set Bytes} (hfin : S.Finite)
    (hS : ∀ verifyKey : Bytes, verifyKey.length = 32 → oracleInputs P verifyKey ctx ⊆ S) {N : ℕ}
    (hN : fuel * PyField.encSize F ≤ N) (hN' : 32 ≤ N) {q : ℕ} (hq : q * max < PyField.modulus F) (σ : WireStrategy) :
    wireWinProbability (fun O => (runWith P O).vdaf) prims ctx (fun _ => AggregateOfValid ((Spec.sumFun max).task F)) σ q S N ≤
      q * paddedSoundness P.flp ^ P.proofs + q / 2 ^ 256 := by
  refine (prio3_probability I.custom h2 hsize (valid := Spec.Bits) ?_ ?_ σ hfin N).trans
    (C68_sum I hmax hV hp hctx hfin hS hN hN' _ q)
  · intro meas hm hb
    obtain ⟨y, h1, h2⟩ := (C15_sum_rejects hmax hV I.fits meas hm).2 hb
    have hv : (Spec.sumFun max).valid (PyField.toNat y : Int) := ⟨by positivity, by exact_mod_cast h2⟩
    obtain ⟨e, h3, h4⟩ := truncate_single (Library.encFacts I.library) hv (o := [y]) (by simp [Spec.sumFun])
    exact ⟨_, e, hv, h3, by rw [h4, h1]⟩
  · intro ms hl hms n hn
    rw [List.mem_singleton.1 hn]
    have h1 := sum_le Int.toNat max ms fun m hm => by have := hms m hm; have := this.2; omega
    have h2 : ms.length * max ≤ q * max := Nat.mul_le_mul_right _ hl
    show (ms.map Int.toNat).sum < _
    omega

/-- C75 for `SumVec` -/
theorem C75_sumvec {length max cl : ℕ} {P : Prio3 (XofTurboShake128 prims fuel) F (List Int) (List ℕ)}
    (I : Spec.Instance P (Spec.sumVecFun length max)) (hV : SumVec F length max cl = .ok P.flp) (h2 : P.shares = 2)
    (hsize : PyField.encSize F * (P.flp.verifierLen * P.proofs) + 32 < 2 ^ 32) (hp : 0 < P.proofs) {ctx : Bytes}
    (hctx : ctx.length + 8 < 2 ^ 16) {S : Set Bytes} (hfin : S.Finite)
    (hS : ∀ verifyKey : Bytes, verifyKey.length = 32 → oracleInputs P verifyKey ctx ⊆ S) {N : ℕ}
    (hN : fuel * PyField.encSize F ≤ N) (hN' : 32 ≤ N) {q : ℕ} (hq : q * max < PyField.modulus F) (σ : WireStrategy) :
    wireWinProbability (fun O => (runWith P O).vdaf) prims ctx
        (fun _ => AggregateOfValid ((Spec.sumVecFun length max).task F)) σ q S N ≤
      q * ((cl : ℚ) / (PyField.modulus F : ℚ) + paddedSoundness P.flp) ^ P.proofs + luckBound P q + q / 2 ^ 256 := by
  have hb := (C68_sumvec I hV hp hctx hfin hS hN hN' (prio3Simulator P σ) 0 q).1
  simp only [zero_add] at hb
  refine (prio3_probability I.custom h2 hsize (valid := Spec.Bits) ?_ ?_ σ hfin N).trans (hb.trans (le_of_eq ?_))
  · intro meas hm hb
    obtain ⟨o, h1, h2, h3⟩ := (C15_sumvec_rejects hV I.fits meas hm).2 hb
    have hv : (Spec.sumVecFun length max).valid (o.map fun y => (PyField.toNat y : Int)) := by
      refine ⟨by simpa using h2, fun x hx => ?_⟩
      obtain ⟨y, hy, rfl⟩ := List.mem_map.1 hx
      exact ⟨by positivity, by exact_mod_cast h3 y hy⟩
    obtain ⟨e, h4, h5⟩ := truncate_single (Library.encFacts I.library) hv (o := o) (by
      show (List.range length).map _ = _
      apply List.ext_getElem (by simpa using h2.symm)
      intro i hi hi'
      have hi : i < o.length := by simpa using hi'
      simp [hi])
    exact ⟨_, e, hv, h4, by rw [h5, h1]⟩
  · intro ms hl hms n hn
    obtain ⟨j, -, rfl⟩ := List.mem_map.1 hn
    have h1 := sum_le (fun m : List Int => (m.getD j 0).toNat) max ms fun m hm => by
      have := (hms m hm).2
      by_cases hj : j < m.length
      · have := (this m[j] (List.getElem_mem hj)).2
        simp only [List.getD_eq_getElem?_getD, List.getElem?_eq_getElem hj, Option.getD_some]
        omega
      · simp [List.getD_eq_getElem?_getD, List.getElem?_eq_none (not_lt.1 hj)]
    have h2 : ms.length * max ≤ q * max := Nat.mul_le_mul_right _ hl
    omega
  · simp [robustness]

/-- C75 for `Histogram` -/
theorem C75_histogram {length cl : ℕ} {P : Prio3 (XofTurboShake128 prims fuel) F Int (List ℕ)}
    (I : Spec.Instance P (Spec.histogramFun length)) (hV : Histogram F length cl = .ok P.flp)
    (hlen : length < PyField.modulus F) (h2 : P.shares = 2)
    (hsize : PyField.encSize F * (P.flp.verifierLen * P.proofs) + 32 < 2 ^ 32) (hp : 0 < P.proofs) {ctx : Bytes}
    (hctx : ctx.length + 8 < 2 ^ 16) {S : Set Bytes} (hfin : S.Finite)
    (hS : ∀ verifyKey : Bytes, verifyKey.length = 32 → oracleInputs P verifyKey ctx ⊆ S) {N : ℕ}
    (hN : fuel * PyField.encSize F ≤ N) (hN' : 32 ≤ N) {q : ℕ} (hq : q < PyField.modulus F) (σ : WireStrategy) :
    wireWinProbability (fun O => (runWith P O).vdaf) prims ctx
        (fun _ => AggregateOfValid ((Spec.histogramFun length).task F)) σ q S N ≤
      q * ((cl : ℚ) / (PyField.modulus F : ℚ) + paddedSoundness P.flp) ^ P.proofs + luckBound P q + q / 2 ^ 256 := by
  refine (prio3_probability I.custom h2 hsize
    (valid := fun meas => ∃ m, (Spec.histogramFun length).valid m ∧ P.flp.encode m = .ok meas)
    ?_ ?_ σ hfin N).trans (C68_histogram I hV hlen hp hctx hfin hS hN hN' _ q)
  · rintro meas - ⟨m, h1, h2⟩
    exact ⟨m, meas, h1, h2, rfl⟩
  · intro ms hl hms n hn
    obtain ⟨j, -, rfl⟩ := List.mem_map.1 hn
    exact lt_of_le_of_lt (List.countP_le_length.trans hl) hq

/-- C75 for `MultihotCountVec` -/
theorem C75_multihot {length mw cl : ℕ} {P : Prio3 (XofTurboShake128 prims fuel) F (List Bool) (List ℕ)}
    (I : Spec.Instance P (Spec.multihotFun length mw)) (hV : MultihotCountVec F length mw cl = .ok P.flp) (h2 : P.shares = 2)
    (hsize : PyField.encSize F * (P.flp.verifierLen * P.proofs) + 32 < 2 ^ 32) (hp : 0 < P.proofs) {ctx : Bytes}
    (hctx : ctx.length + 8 < 2 ^ 16) {S : Set Bytes} (hfin : S.Finite)
    (hS : ∀ verifyKey : Bytes, verifyKey.length = 32 → oracleInputs P verifyKey ctx ⊆ S) {N : ℕ}
    (hN : fuel * PyField.encSize F ≤ N) (hN' : 32 ≤ N) {q : ℕ} (hq : q < PyField.modulus F) (σ : WireStrategy) :
    wireWinProbability (fun O => (runWith P O).vdaf) prims ctx
        (fun _ => AggregateOfValid ((Spec.multihotFun length mw).task F)) σ q S N ≤
      q * ((cl : ℚ) / (PyField.modulus F : ℚ) + paddedSoundness P.flp) ^ P.proofs + luckBound P q + q / 2 ^ 256 := by
  refine (prio3_probability I.custom h2 hsize ?_ ?_ σ hfin N).trans (C68_multihot I hV hp hctx hfin hS hN hN' _ q)
  · rintro meas - ⟨-, m, hv, h1, -⟩
    obtain ⟨e, h3, h4⟩ := truncate_single (Library.encFacts I.library) hv (o := m.map fun b => if b then 1 else 0) (by
      show (List.range length).map _ = _
      apply List.ext_getElem (by simpa using hv.1.symm)
      intro i hi hi'
      have hi : i < m.length := by simpa using hi'
      cases hb : m[i] <;> simp [hi, hb, toNat_zero, toNat_one])
    exact ⟨m, e, hv, h3, by rw [h4, h1]⟩
  · intro ms hl hms n hn
    obtain ⟨j, -, rfl⟩ := List.mem_map.1 hn
    exact lt_of_le_of_lt (List.countP_le_length.trans hl) hq

/-! ## Poplar1 -/

/-- C75 for Poplar1 -/
theorem C75_poplar1 {bits : ℕ} {P : Poplar1} (hP : Poplar1.init bits = .ok P) {ctx : Bytes}
    (hctx : ctx.length + 8 < 2 ^ 16) {S : Set Bytes} (hfin : S.Finite)
    (hS : ∀ verifyKey : Bytes, verifyKey.length = 32 → verifyRandInputs verifyKey ctx ⊆ S) {N : ℕ} (hN : fuel * 32 ≤ N)
    (σ : WireStrategy) (q : ℕ) :
    wireWinProbability (fun O => P.vdaf (withOracle prims O) fuel) prims ctx VotesOfReports σ q S N ≤
      q * (2 / levelModulus bits 0) + q / 2 ^ 256 := by
  by_cases hq : q < levelModulus bits 0
  · have hb := C69_robustness hP (prims := prims) hctx hfin hS hN (poplarSimulator P prims fuel σ) q
    obtain ⟨rfl, -⟩ := Poplar1.init_ok hP
    exact (poplar_probability hq σ hfin N).trans hb
  · have h0 : 0 < levelModulus bits 0 := by
      unfold levelModulus
      split <;> decide
    have h0' : (0 : ℚ) < levelModulus bits 0 := by exact_mod_cast h0
    have h1 : (levelModulus bits 0 : ℚ) ≤ q := by exact_mod_cast not_lt.1 hq
    have h2 : (1 : ℚ) ≤ q * (2 / levelModulus bits 0) := by
      rw [mul_div_assoc', le_div_iff₀ h0']
      linarith
    have h3 : (0 : ℚ) ≤ q / 2 ^ 256 := by positivity
    have := probability_le_one (fun O => P.vdaf (withOracle prims O) fuel) prims ctx VotesOfReports σ q hfin N
    linarith

end

/-! ## Cases in which the hypotheses hold -/

/-- A report for `peerExample`, of a Client that adds `shift` to the first element of the share of the Leader -/
def wireReport (m : Int) (shift : Field128) : WireReport :=
  let nonce := List.replicate 16 (UInt8.ofNat m.toNat)
  let encoded : Res WireReport := do
    let (pub, shares) ← peerExample.shard [1] m nonce (List.replicate 128 7)
    let pub ← Prio3.encodePublicShare pub
    match shares with
    | [.leader (x :: xs) ps blind, helper] => do
      let s0 ← peerExample.encodeInputShare (.leader ((x + shift) :: xs) ps blind)
      let s1 ← peerExample.encodeInputShare helper
      return ⟨nonce, pub, s0, s1⟩
    | _ => .error .type
  match encoded with
  | .ok r => r
  | .error _ => ⟨nonce, [], [], []⟩

/-- The Clients: an evaluation of TurboSHAKE128, honest reports, the first one a second time, a report for which
the Leader gets the wrong share, and a report for an aggregation parameter that is not empty -/
def wireClients : WireStrategy := fun replies =>
  match replies.length with
  | 0 => .query [1, 2, 3]
  | 1 => .submit (wireReport 0 0) []
  | 2 => .submit (wireReport 1 0) []
  | 3 => .submit (wireReport 0 0) []
  | 4 => .submit { wireReport 1 1 with nonce := List.replicate 16 9 } []
  | _ => .submit (wireReport 0 0) [1]

/-- What kind of reply it is -/
def wireReplyKind : WireReply → ℕ
  | .output _ => 0
  | .refused => 1
  | .verdict false => 2
  | .verdict true => 3

/-- The moves and the replies, for a given oracle -/
def wireExampleRun : List (WireMove × WireReply) :=
  wireRun (runWith peerExample fun m i => toyPrims.turboShake m 1 i).vdaf (fun m i => toyPrims.turboShake m 1 i)
    (List.replicate 32 1) [1] wireClients 6

set_option maxRecDepth 4000 in
-- the replies: the value of the oracle, two reports are accepted, the others are refused or not accepted
example : wireExampleRun.map (fun x => wireReplyKind x.2) = [0, 3, 3, 1, 2, 1] := by decide +kernel

set_option maxRecDepth 4000 in
-- the aggregate result of the two accepted reports
example : collected (runWith peerExample fun m i => toyPrims.turboShake m 1 i).vdaf ()
    (acceptedOutputs (runWith peerExample fun m i => toyPrims.turboShake m 1 i).vdaf (List.replicate 32 1) [1] []
      wireExampleRun) = .ok [1, 1] := by decide +kernel

-- the probability that these Clients, or any other ones, win with `2^30` moves
example (σ : WireStrategy) :
    wireWinProbability (fun O => (runWith peerExample O).vdaf) toyPrims [1]
      (fun _ => AggregateOfValid ((Spec.histogramFun 2).task Field128)) σ (2 ^ 30)
      (⋃ k ∈ {b : Bytes | b.length = 32}, oracleInputs peerExample k [1]) 640 ≤ 1 / 2 ^ 90 := by
  refine (C75_histogram peerExample_instance (cl := 1) (by rfl) (by decide) rfl (by decide) (by decide) (by decide)
    (Set.Finite.biUnion (List.finite_length_eq UInt8 32) fun k _ => Prio3.oracleInputs_finite _ _ _)
    (fun k hk => Set.subset_biUnion_of_mem (u := fun k => oracleInputs peerExample k [1]) hk) (by decide) (by decide)
    (by decide) σ).trans ?_
  have h1 : paddedSoundness peerExample.flp = (2 * (2 ^ 2 - 1) : ℕ) / (PyField.modulus Field128 : ℚ) := by
    have h3 : Nat.size 2 = 2 := by decide +kernel
    norm_num [paddedSoundness, peerExample, Histogram.circuit, ParallelSum, Mul, numCalls, h3]
  have h2 : luckBound peerExample (2 ^ 30) = 3 * (2 ^ 30 * 3) ^ 2 / 2 ^ 256 := by
    rw [luckBound, if_pos (by decide), show peerExample.shares = 2 from rfl]
    norm_num
  rw [h1, h2, show PyField.modulus Field128 = 340282366920938462946865773367900766209 from rfl,
    show peerExample.proofs = 1 from rfl]
  norm_num

/-- A report of a Client of Poplar1, in the topology with a Leader and a Helper -/
def wireTreeReport (cheat : Bool) : WireReport :=
  match poplar1Report cheat with
  | .ok ⟨nonce, pub, [s0, s1]⟩ => ⟨nonce, pub, s0, s1⟩
  | _ => ⟨[], [], [], []⟩

/-- An encoded aggregation parameter: both prefixes of length one, or two of length two -/
def wireTreeParam (level : ℕ) : Bytes :=
  match Poplar1.encodeAggParam (level, if level = 0 then [[false], [true]] else [[true, false], [true, true]]) with
  | .ok b => b
  | .error _ => []

/-- The Clients and the Collector -/
def wireTreeClients : WireStrategy := fun replies =>
  match replies.length with
  | 0 => .query [1, 2, 3]
  | 1 | 2 => .submit (wireTreeReport false) (wireTreeParam 0)
  | 3 => .submit (wireTreeReport false) (wireTreeParam 1)
  | _ => .submit (wireTreeReport true) (wireTreeParam 0)

/-- Poplar1 for measurements of two bits -/
abbrev wireTree := (⟨poplarIdpf 2⟩ : Poplar1).vdaf toyPrims 40

/-- The moves and the replies, for a given oracle -/
def wireTreeRun : List (WireMove × WireReply) :=
  wireRun wireTree (fun m i => toyPrims.turboShake m 1 i) (List.replicate 32 1) [1] wireTreeClients 5

set_option maxRecDepth 4000 in
-- the replies: the value of the oracle, accepted, refused, accepted for the next level, not accepted
example : wireTreeRun.map (fun x => wireReplyKind x.2) = [0, 3, 1, 3, 2] := by decide +kernel

set_option maxRecDepth 4000 in
-- the aggregate results of the accepted report
example : (collected wireTree (0, [[false], [true]])
      (acceptedOutputs wireTree (List.replicate 32 1) [1] (wireTreeParam 0) wireTreeRun) = .ok [0, 1]) ∧
    (collected wireTree (1, [[true, false], [true, true]])
      (acceptedOutputs wireTree (List.replicate 32 1) [1] (wireTreeParam 1) wireTreeRun) = .ok [1, 0]) := by
  decide +kernel

-- the probability that these Clients, or any other ones, win with `2^20` moves
example (σ : WireStrategy) :
    wireWinProbability (fun O => (⟨poplarIdpf 2⟩ : Poplar1).vdaf (withOracle toyPrims O) 40) toyPrims [1] VotesOfReports σ
      (2 ^ 20) (⋃ k ∈ {b : Bytes | b.length = 32}, verifyRandInputs k [1]) 1280 ≤ 1 / 2 ^ 42 := by
  refine (C75_poplar1 (bits := 2) (by rfl) (by decide)
    (Set.Finite.biUnion (List.finite_length_eq UInt8 32) fun k _ => Poplar1.verifyRandInputs_finite _ _)
    (fun k hk => Set.subset_biUnion_of_mem (u := fun k => verifyRandInputs k [1]) hk) (by decide) σ _).trans ?_
  have : levelModulus 2 0 = 18446744069414584321 := by decide
  rw [this]
  norm_num

end Vdaf
