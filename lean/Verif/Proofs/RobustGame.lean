import Verif.Proofs.PrivacyStep
import Verif.Spec.RobustGame

/-! What the run of a malicious Client depends on. -/

set_option linter.unusedSectionVars false

namespace Vdaf
open Spec (tag runWith withOracle ClientMove ClientReply clientRun respond submittedNonces commitment accepts measShares seedOf
  jointRandomness)

section
variable {F : Type} [PyField F] {prims : Prims} {fuel : ℕ} {T T' : Bytes → ℕ → UInt8}

theorem nextVecLoop_succ (prims : Prims) (m : Bytes) (k n g pos : ℕ) (vec : List F) :
    (XofTurboShake128 prims fuel).nextVecLoop F k n (g + 1) (⟨m, pos⟩ : TurboShakeState) vec =
      if vec.length < n then
        if fromLeBytes ((List.range (PyField.encSize F)).map fun i => prims.turboShake m 1 (pos + i)) &&& k <
            PyField.modulus F then do
          let fx ← ofInt F (fromLeBytes ((List.range (PyField.encSize F)).map fun i => prims.turboShake m 1 (pos + i)) &&& k : ℕ)
          (XofTurboShake128 prims fuel).nextVecLoop F k n g (⟨m, pos + PyField.encSize F⟩ : TurboShakeState) (vec ++ [fx])
        else (XofTurboShake128 prims fuel).nextVecLoop F k n g (⟨m, pos + PyField.encSize F⟩ : TurboShakeState) vec
      else .ok (vec, (⟨m, pos⟩ : TurboShakeState)) := rfl

theorem nextVecLoop_congr {m : Bytes} (h : T' m = T m) (k n : ℕ) (g pos : ℕ) (vec : List F) :
    (XofTurboShake128 (withOracle prims T') fuel).nextVecLoop F k n g (⟨m, pos⟩ : TurboShakeState) vec =
      (XofTurboShake128 (withOracle prims T) fuel).nextVecLoop F k n g (⟨m, pos⟩ : TurboShakeState) vec := by
  induction g generalizing pos vec with
  | zero => rfl
  | succ g ih =>
    rw [nextVecLoop_succ]
    simp only [ih]
    refine Eq.trans ?_ (nextVecLoop_succ (fuel := fuel) (withOracle prims T) m k n g pos vec).symm
    have h1 : (withOracle prims T').turboShake m 1 = (withOracle prims T).turboShake m 1 := by simp [withOracle, h]
    rw [h1]
    rfl

theorem expandIntoVec_congr {s d b : Bytes} {n : ℕ} (h : s.length < 2 ^ 8 → T' (turboInput s d b) = T (turboInput s d b)) :
    (XofTurboShake128 (withOracle prims T') fuel).expandIntoVec F s d b n =
      (XofTurboShake128 (withOracle prims T) fuel).expandIntoVec F s d b n := by
  unfold Xof.expandIntoVec
  rw [turbo_init, turbo_init]
  by_cases hd : d.length < 2 ^ 16
  · rw [if_pos hd, if_pos hd]
    by_cases hs : s.length < 2 ^ 8
    · rw [if_pos hs, if_pos hs]
      have h1 : ∀ prims : Prims, (do
          let (vec, _) ← (XofTurboShake128 prims fuel).nextVec F fuel (⟨turboInput s d b, 0⟩ : TurboShakeState) n
          return vec : Res (List F)) = (do
          let k ← nextPowerOf2 (PyField.modulus F)
          let x ← (XofTurboShake128 prims fuel).nextVecLoop F (k - 1) n fuel (⟨turboInput s d b, 0⟩ : TurboShakeState) []
          return x.1) := by
        intro prims
        unfold Xof.nextVec
        rw [bind_assoc]
      refine (h1 (withOracle prims T')).trans (Eq.trans ?_ (h1 (withOracle prims T)).symm)
      congr 1
      funext k
      rw [nextVecLoop_congr (h hs)]
      rfl
    · rw [if_neg hs, if_neg hs]; rfl
  · rw [if_neg hd, if_neg hd]; rfl

theorem deriveSeed_congr {s d b : Bytes} (h : s.length < 2 ^ 8 → T' (turboInput s d b) = T (turboInput s d b)) :
    (XofTurboShake128 (withOracle prims T') fuel).deriveSeed s d b =
      (XofTurboShake128 (withOracle prims T) fuel).deriveSeed s d b := by
  unfold Xof.deriveSeed
  rw [turbo_init, turbo_init]
  by_cases hd : d.length < 2 ^ 16
  · rw [if_pos hd, if_pos hd]
    by_cases hs : s.length < 2 ^ 8
    · rw [if_pos hs, if_pos hs]
      simp only [Except.ok_bind', XofTurboShake128, withOracle, if_true, h hs]
    · rw [if_neg hs, if_neg hs]; rfl
  · rw [if_neg hd, if_neg hd]; rfl

end

namespace Prio3
variable {F : Type} [NttField F] {Meas Agg : Type} {prims : Prims} {fuel : ℕ}
  {P : Prio3 (XofTurboShake128 prims fuel) F Meas Agg} {T T' : Bytes → ℕ → UInt8}

/-- The input of the oracle for the joint randomness -/
def jrPos (P : Prio3 (XofTurboShake128 prims fuel) F Meas Agg) (ctx seed : Bytes) : Bytes :=
  turboInput seed (tag P.id 3 ctx) [UInt8.ofNat P.proofs]

/-- The input of the oracle for the query randomness -/
def qrPos (P : Prio3 (XofTurboShake128 prims fuel) F Meas Agg) (vk ctx nonce : Bytes) : Bytes :=
  turboInput vk (tag P.id 5 ctx) (UInt8.ofNat P.proofs :: nonce)

/-- The oracles agree, except at one input which is one of those for the joint randomness or for the query randomness. -/
structure Near (P : Prio3 (XofTurboShake128 prims fuel) F Meas Agg) (vk ctx : Bytes) (T T' : Bytes → ℕ → UInt8)
    (m0 : Bytes) : Prop where
  agree : ∀ m, m ≠ m0 → T' m = T m
  pos : (∃ s, s.length < 2 ^ 8 ∧ m0 = jrPos P ctx s) ∨ ∃ nonce, m0 = qrPos P vk ctx nonce

theorem Near.symm {vk ctx m0 : Bytes} (A : Near P vk ctx T T' m0) : Near P vk ctx T' T m0 :=
  ⟨fun m hm => (A.agree m hm).symm, A.pos⟩

section
variable (W : P.WF) {vk ctx m0 : Bytes} (hctx : ctx.length + 8 < 2 ^ 16) (hvk : vk.length = 32)
  (A : Near P vk ctx T T' m0)
include W hctx hvk A

theorem Near.usage {u : ℕ} (hu : u < 2 ^ 16) (h3 : u ≠ 3) (h5 : u ≠ 5) {s b : Bytes} (hs : s.length < 2 ^ 8) :
    T' (turboInput s (tag P.id u ctx) b) = T (turboInput s (tag P.id u ctx) b) := by
  apply A.agree
  have hd : ∀ u, (tag P.id u ctx).length < 2 ^ 16 := fun u => by rw [tag_length]; omega
  rintro rfl
  rcases A.pos with ⟨s', hs', h⟩ | ⟨nonce, h⟩
  · obtain ⟨-, h2, -⟩ := turboInput_inj (hd _) (hd _) hs hs' h
    exact h3 (tag_usage W hu (by norm_num) h2)
  · obtain ⟨-, h2, -⟩ := turboInput_inj (hd _) (hd _) hs (by omega) h
    exact h5 (tag_usage W hu (by norm_num) h2)

theorem Near.measShare (j : ℕ) (s : Bytes) :
    Spec.measShare (runWith P T') ctx j s = Spec.measShare (runWith P T) ctx j s :=
  expandIntoVec_congr fun hs => A.usage W hctx hvk (by norm_num) (by norm_num) (by norm_num) hs

theorem Near.proofsShare (j : ℕ) (s : Bytes) :
    Spec.proofsShare (runWith P T') ctx j s = Spec.proofsShare (runWith P T) ctx j s :=
  expandIntoVec_congr fun hs => A.usage W hctx hvk (by norm_num) (by norm_num) (by norm_num) hs

theorem Near.part (j : ℕ) (b : Bytes) (ms : List F) (nonce : Bytes) :
    Spec.jointRandPart (runWith P T') ctx j b ms nonce = Spec.jointRandPart (runWith P T) ctx j b ms nonce := by
  unfold Spec.jointRandPart
  congr 1
  funext e
  exact deriveSeed_congr fun hs => A.usage W hctx hvk (by norm_num) (by norm_num) (by norm_num) hs

theorem Near.seed (parts : List Bytes) :
    Spec.jointRandSeed (runWith P T') ctx parts = Spec.jointRandSeed (runWith P T) ctx parts :=
  deriveSeed_congr fun hs => A.usage W hctx hvk (by norm_num) (by norm_num) (by norm_num) hs

omit W hctx hvk in
theorem Near.jointRands {s : Bytes} (h : jrPos P ctx s ≠ m0) :
    Spec.jointRands (runWith P T') ctx s = Spec.jointRands (runWith P T) ctx s :=
  expandIntoVec_congr fun _ => A.agree _ h

omit W hctx hvk in
theorem Near.queryRands {nonce : Bytes} (h : qrPos P vk ctx nonce ≠ m0) :
    Spec.queryRands (runWith P T') vk ctx nonce = Spec.queryRands (runWith P T) vk ctx nonce :=
  expandIntoVec_congr fun _ => A.agree _ h

theorem Near.measShares (ish : List (Prio3InputShare F)) :
    measShares (runWith P T') ctx ish = measShares (runWith P T) ctx ish := by
  unfold Spec.measShares
  apply mapRes_congr
  intro j _
  congr 1
  funext s
  cases s with
  | leader => rfl
  | helper => simp only [A.measShare W hctx hvk]

theorem Near.seedOf (nonce : Bytes) (xs : List (List F × Option Bytes)) :
    seedOf (runWith P T') ctx nonce xs = seedOf (runWith P T) ctx nonce xs := by
  unfold Spec.seedOf
  simp only [A.part W hctx hvk, A.seed W hctx hvk]
  rfl

theorem Near.commitment (nonce : Bytes) (ish : List (Prio3InputShare F)) :
    commitment (runWith P T') ctx nonce ish = commitment (runWith P T) ctx nonce ish := by
  unfold Spec.commitment
  simp only [A.measShares W hctx hvk, A.seedOf W hctx hvk]

theorem Near.verifyInit {nonce : Bytes} {pub : Option (List Bytes)} {j : ℕ} {s : Prio3InputShare F}
    {st sh : List F × Option Bytes} (hq : qrPos P vk ctx nonce ≠ m0)
    (hj : ∀ seed, st.2 = some seed → jrPos P ctx seed ≠ m0)
    (h : (runWith P T).verifyInit vk ctx j () nonce pub s = .ok (st, sh)) :
    (runWith P T').verifyInit vk ctx j () nonce pub s = .ok (st, sh) := by
  unfold Prio3.verifyInit at h ⊢
  obtain ⟨⟨ms, ps, bl⟩, e1, h⟩ := Except.bind_eq_ok.1 h
  obtain ⟨o, e2, h⟩ := Except.bind_eq_ok.1 h
  obtain ⟨⟨jrs, c, p⟩, e3, h⟩ := Except.bind_eq_ok.1 h
  obtain ⟨qrs, e4, h⟩ := Except.bind_eq_ok.1 h
  obtain ⟨w, e5, h⟩ := Except.bind_eq_ok.1 h
  have h6 := Except.ok.inj h
  have h7 : st = (o, c) := (congrArg Prod.fst h6).symm
  have h8 : sh = (w, p) := (congrArg Prod.snd h6).symm
  subst h7 h8
  have e1' : (runWith P T').expandInputShare ctx j s = .ok (ms, ps, bl) := by
    unfold expandInputShare at e1 ⊢
    split at e1
    · next hj0 =>
      rw [if_pos hj0]
      cases s with
      | leader => cases e1
      | helper seed b =>
        dsimp only at e1 ⊢
        obtain ⟨a1, f1, e1⟩ := Except.bind_eq_ok.1 e1
        obtain ⟨a2, f2, e1⟩ := Except.bind_eq_ok.1 e1
        rw [measShare_ok, ← A.measShare W hctx hvk] at f1
        rw [proofsShare_ok, ← A.proofsShare W hctx hvk] at f2
        rw [measShare_ok.2 f1, proofsShare_ok.2 f2]
        exact e1
    · next hj0 =>
      rw [if_neg hj0]
      exact e1
  have hf : (runWith P T').flp = (runWith P T).flp := rfl
  have e3' : (runWith P T').verifyJointRand ctx j nonce pub ms bl = .ok (jrs, c, p) := by
    unfold verifyJointRand at e3 ⊢
    rw [hf]
    split at e3
    · next hj0 =>
      rw [if_pos hj0]
      cases bl with
      | none => cases e3
      | some b =>
        cases pub with
        | none => cases e3
        | some parts =>
          dsimp only at e3 ⊢
          obtain ⟨a1, f1, e3⟩ := Except.bind_eq_ok.1 e3
          obtain ⟨a2, f2, e3⟩ := Except.bind_eq_ok.1 e3
          obtain ⟨a3, f3, e3⟩ := Except.bind_eq_ok.1 e3
          obtain ⟨a4, f4, e3⟩ := Except.bind_eq_ok.1 e3
          have g1 := Except.ok.inj e3
          have g2 : some a3 = c := congrArg (fun x => x.2.1) g1
          rw [jointRandPart_ok, ← A.part W hctx hvk] at f1
          rw [jointRandSeed_ok, ← A.seed W hctx hvk] at f3
          rw [jointRands_ok, ← A.jointRands (hj a3 g2.symm)] at f4
          rw [jointRandPart_ok.2 f1, Except.ok_bind', f2, Except.ok_bind', jointRandSeed_ok.2 f3, Except.ok_bind',
            jointRands_ok.2 f4]
          exact e3
    · next hj0 =>
      rw [if_neg hj0]
      exact e3
  have e4' : (runWith P T').queryRands vk ctx nonce = .ok qrs := by
    rw [queryRands_ok, ← A.queryRands hq] at e4
    exact queryRands_ok.2 e4
  rw [e1', Except.ok_bind']
  dsimp only
  rw [show (runWith P T').flp.truncate ms = .ok o from e2, Except.ok_bind', e3', Except.ok_bind']
  dsimp only
  rw [e4', Except.ok_bind', show (runWith P T').queryLoop ms ps qrs jrs = .ok w from e5]
  rfl

theorem Near.sharesToMessage {sh : List (List F × Option Bytes)} {msg : Option Bytes}
    (h : (runWith P T).sharesToMessage ctx () sh = .ok msg) :
    (runWith P T').sharesToMessage ctx () sh = .ok msg := by
  unfold Prio3.sharesToMessage at h ⊢
  obtain ⟨x, h1, h⟩ := Except.bind_eq_ok.1 h
  obtain ⟨y, h2, h⟩ := Except.bind_eq_ok.1 h
  refine Except.bind_eq_ok.2 ⟨x, h1, Except.bind_eq_ok.2 ⟨y, h2, ?_⟩⟩
  have hf : (runWith P T').flp = (runWith P T).flp := rfl
  rw [hf]
  split at h
  · next h0 =>
    rw [if_pos h0]
    obtain ⟨s, h3, h⟩ := Except.bind_eq_ok.1 h
    rw [jointRandSeed_ok, ← A.seed W hctx hvk] at h3
    exact Except.bind_eq_ok.2 ⟨s, jointRandSeed_ok.2 h3, h⟩
  · next h0 =>
    rw [if_neg h0]
    exact h

end

/-! ### Acceptance -/

theorem accepts_iff {X : Xof} {P : Prio3 X F Meas Agg} {vk ctx : Bytes} {r : Spec.Report F} :
    accepts P vk ctx r = true ↔ ∃ (ish : ℕ → Prio3InputShare F) (st sh : ℕ → List F × Option Bytes) (msg : Option Bytes),
      (∀ j < P.shares, r.inputShares[j]? = some (ish j)) ∧
        Spec.VerifySucceeds P vk ctx r.nonce r.publicShare ish st sh msg := by
  have hok : ∀ {α : Type} (x : Res α), x.isOk = true ↔ ∃ a, x = .ok a := by
    intro α x
    cases x <;> simp [Except.isOk, Except.toBool]
  unfold Spec.accepts Spec.VerifySucceeds
  rw [hok]
  constructor
  · rintro ⟨a, h⟩
    obtain ⟨outs, h1, h⟩ := Except.bind_eq_ok.1 h
    obtain ⟨msg, h2, h3⟩ := Except.bind_eq_ok.1 h
    obtain ⟨hl, h1⟩ := mapRes_range_iff.1 h1
    have h4 : ∀ j, ∃ (s : Prio3InputShare F) (st sh : List F × Option Bytes), j < P.shares → r.inputShares[j]? = some s ∧
        P.verifyInit vk ctx j () r.nonce r.publicShare s = .ok (st, sh) ∧ outs[j]? = some (st, sh) := by
      intro j
      by_cases hj : j < P.shares
      · obtain ⟨⟨st, sh⟩, h5, h6⟩ := h1 j hj
        obtain ⟨s, h7, h8⟩ := Except.bind_eq_ok.1 h5
        exact ⟨s, st, sh, fun _ => ⟨getI_eq_ok.1 h7, h8, h6⟩⟩
      · exact ⟨.helper [] none, ([], none), ([], none), fun h => absurd h hj⟩
    choose ish st sh h4 using h4
    have ho : outs = (List.range P.shares).map fun j => (st j, sh j) := by
      apply List.ext_getElem?
      intro j
      by_cases hj : j < P.shares
      · rw [(h4 j hj).2.2, List.getElem?_map, List.getElem?_range hj]
        rfl
      · rw [List.getElem?_eq_none (by omega), List.getElem?_eq_none (by simp; omega)]
    refine ⟨ish, st, sh, msg, fun j hj => (h4 j hj).1, fun j hj => (h4 j hj).2.1, ?_, ?_⟩
    · rw [← h2, ho, List.map_map]
      rfl
    · intro j hj
      rw [ho, mapRes_map] at h3
      obtain ⟨r', h5, -⟩ := (mapRes_range_iff.1 h3).2 j hj
      exact ⟨r', h5⟩
  · rintro ⟨ish, st, sh, msg, h1, h2, h3, h4⟩
    have h5 : mapRes (fun j => do
        let s ← getI r.inputShares j
        P.verifyInit vk ctx j () r.nonce r.publicShare s) (List.range P.shares) = .ok (tab P.shares fun j => (st j, sh j)) := by
      apply mapRes_range_tab
      intro j hj
      rw [getI_of_some (h1 j hj)]
      exact h2 j hj
    have h4 : ∀ j, ∃ r, j < P.shares → verifyNext (F := F) ctx (st j) msg = .ok r := fun j => by
      by_cases hj : j < P.shares
      · obtain ⟨r, h⟩ := h4 j hj
        exact ⟨r, fun _ => h⟩
      · exact ⟨.out [], fun h => absurd h hj⟩
    choose r' h4 using h4
    refine ⟨tab P.shares r', ?_⟩
    rw [h5, Except.ok_bind']
    have h6 : (tab P.shares fun j => (st j, sh j)).map Prod.snd = (List.range P.shares).map sh := by
      simp [tab, Function.comp_def]
    rw [h6, h3, Except.ok_bind']
    unfold tab
    rw [mapRes_map]
    exact mapRes_range_tab fun j hj => h4 j hj

theorem commitment_of_success {X : Xof} {P : Prio3 X F Meas Agg} (hN : 0 < P.shares) {vk ctx nonce : Bytes}
    {pub : Option (List Bytes)} {l : List (Prio3InputShare F)}
    {ish : ℕ → Prio3InputShare F} {st sh : ℕ → List F × Option Bytes} {msg : Option Bytes}
    (hl : ∀ j < P.shares, l[j]? = some (ish j))
    (h : Spec.VerifySucceeds P vk ctx nonce pub ish st sh msg) :
    ∃ (ms ps : ℕ → List F) (bl : ℕ → Option Bytes) (jrs qrs : List F) (seed : Bytes),
      (∀ j < P.shares, Spec.Expands P ctx j (ish j) (ms j) (ps j) (bl j)) ∧
      Spec.commitment P ctx nonce l = .ok (tab P.shares ms, seed) ∧
      (0 < P.flp.jointRandLen → msg = some seed ∧ P.jointRands ctx seed = .ok jrs) ∧
      (P.flp.jointRandLen = 0 → msg = none ∧ jrs = []) ∧
      P.queryRands vk ctx nonce = .ok qrs ∧
      ∀ j < P.shares, (st j).2 = msg ∧ P.queryLoop (ms j) (ps j) qrs jrs = .ok (sh j).1 := by
  obtain ⟨ms, ps, bl, jrs, qrs, h1, h2, h3, h4⟩ := joint_of_success hN h
  have h5 : Spec.measShares P ctx l = .ok (tab P.shares fun j => (ms j, bl j)) := by
    unfold Spec.measShares
    apply mapRes_range_tab
    intro j hj
    rw [getI_of_some (hl j hj), Except.ok_bind']
    rcases expandInputShare_ok (h1 j hj) with ⟨rfl, e⟩ | ⟨h0, s, e, e1, e2⟩
    · rw [e]; rfl
    · rw [e]
      dsimp only
      rw [if_neg (by omega), e1]
      rfl
  have hfst : (tab P.shares fun j => (ms j, bl j)).map Prod.fst = tab P.shares ms := by
    simp [tab, Function.comp_def]
  rcases h2 with ⟨h0, rfl, rfl⟩ | ⟨h0, b, parts, s, rfl, k1, k2, k3⟩
  · refine ⟨ms, ps, bl, [], qrs, List.replicate 32 0, fun j hj => expandInputShare_ok (h1 j hj), ?_, fun h => by omega, fun _ => ⟨rfl, rfl⟩, h3,
      fun j hj => ⟨(h4 j hj).1, (h4 j hj).2.2⟩⟩
    unfold Spec.commitment Spec.seedOf
    rw [h5, Except.ok_bind', if_neg (by omega), ← hfst]
    rfl
  · refine ⟨ms, ps, bl, jrs, qrs, s, fun j hj => expandInputShare_ok (h1 j hj), ?_, fun _ => ⟨rfl, k3⟩, fun h => by omega, h3,
      fun j hj => ⟨(h4 j hj).1, (h4 j hj).2.2⟩⟩
    unfold Spec.commitment Spec.seedOf
    rw [h5, Except.ok_bind', if_pos h0, ← hfst]
    have h6 : mapRes (fun j => do
        let x ← getI (tab P.shares fun j => (ms j, bl j)) j
        match x.2 with
        | none => .error (.value "no blind")
        | some blind => Spec.jointRandPart P ctx j blind x.1 nonce) (List.range P.shares) = .ok (tab P.shares parts) := by
      apply mapRes_range_tab
      intro j hj
      rw [getI_of_some (x := (ms j, bl j)) (by simp [tab, hj]), Except.ok_bind']
      dsimp only
      rw [(k1 j hj).1]
      exact (jointRandPart_ok.1 (k1 j hj).2).2.2
    refine Except.bind_eq_ok.2 ⟨s, Except.bind_eq_ok.2 ⟨_, h6, (jointRandSeed_ok.1 k2).2⟩, rfl⟩

/-! ### Runs -/

/-- The reply to this move does not depend on the oracle at `m0`. -/
def Avoids (P : Prio3 (XofTurboShake128 prims fuel) F Meas Agg) (T : Bytes → ℕ → UInt8) (vk ctx m0 : Bytes)
    (mv : ClientMove F) : Prop :=
  (∀ ms s, Spec.commitment (runWith P T) ctx mv.nonce mv.inputShares = .ok (ms, s) → 0 < P.flp.jointRandLen →
    jrPos P ctx s ≠ m0) ∧
  ∀ r, mv = .submit r → r.nonce.length = 16 → qrPos P vk ctx r.nonce ≠ m0

section
variable (W : P.WF) {vk ctx m0 : Bytes} (hctx : ctx.length + 8 < 2 ^ 16) (hvk : vk.length = 32)
  (A : Near P vk ctx T T' m0)
include W hctx hvk A

theorem Near.avoids {mv : ClientMove F} (h : Avoids P T vk ctx m0 mv) : Avoids P T' vk ctx m0 mv := by
  refine ⟨fun ms s h1 => ?_, h.2⟩
  rw [A.commitment W hctx hvk] at h1
  exact h.1 ms s h1

theorem Near.accepts_of {r : Spec.Report F} (hr : r.nonce.length = 16) (h : Avoids P T vk ctx m0 (.submit r))
    (ha : Spec.accepts (runWith P T) vk ctx r = true) : Spec.accepts (runWith P T') vk ctx r = true := by
  obtain ⟨ish, st, sh, msg, h1, h2⟩ := accepts_iff.1 ha
  have hN : 0 < (runWith P T).shares := by have := W.shares_ge; show 0 < P.shares; omega
  obtain ⟨ms, ps, bl, jrs, qrs, seed, -, h3, h4, h5, h6, h7⟩ := commitment_of_success hN h1 h2
  refine accepts_iff.2 ⟨ish, st, sh, msg, h1, fun j hj => ?_, A.sharesToMessage W hctx hvk h2.2.1, h2.2.2⟩
  refine A.verifyInit W hctx hvk (h.2 r rfl hr) (fun s hs => ?_) (h2.1 j hj)
  rw [(h7 j hj).1] at hs
  rcases Nat.eq_zero_or_pos P.flp.jointRandLen with h0 | h0
  · rw [(h5 h0).1] at hs
    cases hs
  · rw [(h4 h0).1] at hs
    cases hs
    exact h.1 _ _ h3 h0

theorem Near.respond {mv : ClientMove F} (h : Avoids P T vk ctx m0 mv) (hist : List (ClientMove F × ClientReply F)) :
    Spec.respond (runWith P T') vk ctx hist mv = Spec.respond (runWith P T) vk ctx hist mv := by
  cases mv with
  | probe nonce ish =>
    simp only [Spec.respond]
    unfold Spec.jointRandomness
    rw [A.commitment W hctx hvk]
    cases hc : Spec.commitment (runWith P T) ctx nonce ish with
    | error e => rfl
    | ok x =>
      obtain ⟨ms, s⟩ := x
      simp only [Except.ok_bind']
      by_cases h0 : 0 < P.flp.jointRandLen
      · rw [show Spec.jointRands (runWith P T') ctx s = Spec.jointRands (runWith P T) ctx s from
          A.jointRands (h.1 ms s hc h0)]
        rfl
      · rw [if_neg (show ¬ 0 < (runWith P T').flp.jointRandLen from h0),
          if_neg (show ¬ 0 < (runWith P T).flp.jointRandLen from h0)]
  | submit r =>
    simp only [Spec.respond]
    by_cases hr : r.nonce.length = 16
    · congr 2
      rw [Bool.eq_iff_iff]
      exact ⟨A.symm.accepts_of W hctx hvk hr (A.avoids W hctx hvk h), A.accepts_of W hctx hvk hr h⟩
    · simp [hr]

theorem Near.clientRun {σ : Spec.ClientStrategy F} {t : ℕ}
    (h : ∀ x ∈ Spec.clientRun (runWith P T) vk ctx σ t, Avoids P T vk ctx m0 x.1) :
    Spec.clientRun (runWith P T') vk ctx σ t = Spec.clientRun (runWith P T) vk ctx σ t := by
  induction t with
  | zero => rfl
  | succ t ih =>
    simp only [Spec.clientRun] at h ⊢
    rw [ih fun x hx => h x (by simp [hx])]
    rw [A.respond W hctx hvk (h _ (List.mem_append_right _ (List.mem_singleton.2 rfl)))]

end

theorem mem_clientRun {X : Xof} {P : Prio3 X F Meas Agg} {vk ctx : Bytes} {σ : Spec.ClientStrategy F} {t : ℕ}
    {x : ClientMove F × ClientReply F} : x ∈ Spec.clientRun P vk ctx σ t ↔ ∃ k < t,
      x = (σ ((Spec.clientRun P vk ctx σ k).map Prod.snd), Spec.respond P vk ctx (Spec.clientRun P vk ctx σ k)
        (σ ((Spec.clientRun P vk ctx σ k).map Prod.snd))) := by
  induction t with
  | zero => simp [Spec.clientRun]
  | succ t ih =>
    simp only [Spec.clientRun, List.mem_append, List.mem_singleton, ih]
    constructor
    · rintro (⟨k, hk, h⟩ | h)
      · exact ⟨k, by omega, h⟩
      · exact ⟨t, by omega, h⟩
    · rintro ⟨k, hk, h⟩
      rcases Nat.lt_succ_iff_lt_or_eq.1 hk with h' | rfl
      · exact .inl ⟨k, h', h⟩
      · exact .inr h

theorem clientRun_mono {X : Xof} {P : Prio3 X F Meas Agg} {vk ctx : Bytes} {σ : Spec.ClientStrategy F} {s t : ℕ}
    (h : s ≤ t) : ∀ x ∈ Spec.clientRun P vk ctx σ s, x ∈ Spec.clientRun P vk ctx σ t := by
  intro x hx
  obtain ⟨k, hk, h'⟩ := mem_clientRun.1 hx
  exact mem_clientRun.2 ⟨k, by omega, h'⟩

theorem mem_submittedNonces {hist : List (ClientMove F × ClientReply F)} {nonce : Bytes} :
    nonce ∈ submittedNonces hist ↔ ∃ r v, (.submit r, v) ∈ hist ∧ r.nonce = nonce := by
  unfold Spec.submittedNonces
  rw [List.mem_filterMap]
  constructor
  · rintro ⟨⟨mv, v⟩, h1, h2⟩
    cases mv with
    | probe => cases h2
    | submit r => exact ⟨r, v, h1, Option.some.inj h2⟩
  · rintro ⟨r, v, h1, h2⟩
    exact ⟨_, h1, congrArg some h2⟩

/-- An accepted report, with the state of the game when it is submitted -/
theorem submit_accepted {X : Xof} {P : Prio3 X F Meas Agg} {vk ctx : Bytes} {σ : Spec.ClientStrategy F} {q : ℕ}
    {r : Spec.Report F} : (.submit r, .verdict true) ∈ Spec.clientRun P vk ctx σ q ↔ ∃ t < q,
      σ ((Spec.clientRun P vk ctx σ t).map Prod.snd) = .submit r ∧ r.nonce.length = 16 ∧
        r.nonce ∉ submittedNonces (Spec.clientRun P vk ctx σ t) ∧ Spec.accepts P vk ctx r = true := by
  rw [mem_clientRun]
  constructor
  · rintro ⟨t, ht, h⟩
    rw [Prod.mk.injEq] at h
    obtain ⟨h1, h2⟩ := h
    rw [← h1] at h2
    simp only [Spec.respond, ClientReply.verdict.injEq, Bool.true_eq, Bool.and_eq_true, decide_eq_true_eq] at h2
    exact ⟨t, ht, h1.symm, h2.1.1, h2.1.2, h2.2⟩
  · rintro ⟨t, ht, h1, h2, h3, h4⟩
    refine ⟨t, ht, ?_⟩
    rw [h1, Prod.mk.injEq]
    simp [Spec.respond, h2, h3, h4]

end Prio3
end Vdaf
