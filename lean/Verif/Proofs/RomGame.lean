import Verif.Proofs.RobustMain
import Verif.Proofs.Prio3Codec
import Verif.Spec.RandomOracle

/-! What the run of a Client that evaluates the oracle depends on. -/

set_option linter.unusedSectionVars false

namespace Vdaf.Prio3
open Spec (tag runWith withOracle OracleMove OracleReply OracleStrategy EncodedReport oracleRun oracleRespond sentNonces
  decodeReport acceptsEncoded accepts measShares oracleInputs)
variable {F : Type} [NttField F] {Meas Agg : Type} {prims : Prims} {fuel : ℕ}
  {P : Prio3 (XofTurboShake128 prims fuel) F Meas Agg} {T T' : Bytes → ℕ → UInt8}

/-- The first 32 bytes of the value of the oracle -/
def headOf (T : Bytes → ℕ → UInt8) (m : Bytes) : Bytes := Spec.bytesAt (T m) 0 32

theorem headOf_length (m : Bytes) : (headOf T m).length = 32 := by simp [headOf, Spec.bytesAt]

theorem headOf_congr {m : Bytes} (h : T' m = T m) : headOf T' m = headOf T m := by
  unfold headOf
  rw [h]

/-- The input of the oracle for a part of the joint randomness -/
def partPos (P : Prio3 (XofTurboShake128 prims fuel) F Meas Agg) (ctx : Bytes) (j : ℕ) (b : Bytes) (ms : List F)
    (nonce : Bytes) : Bytes := turboInput b (tag P.id 7 ctx) (UInt8.ofNat j :: (nonce ++ encAll ms))

/-- The input of the oracle for the joint randomness seed -/
def seedPos (P : Prio3 (XofTurboShake128 prims fuel) F Meas Agg) (ctx : Bytes) (parts : List Bytes) : Bytes :=
  turboInput (List.replicate 32 0) (tag P.id 6 ctx) parts.flatten

theorem jointRandPart_head {ctx : Bytes} (hctx : ctx.length + 8 < 2 ^ 16) {j : ℕ} {b : Bytes} (hb : b.length < 2 ^ 8)
    {ms : List F} {nonce : Bytes} :
    Spec.jointRandPart (runWith P T) ctx j b ms nonce = .ok (headOf T (partPos P ctx j b ms nonce)) := by
  unfold Spec.jointRandPart
  rw [encodeVec_eq, Except.ok_bind', deriveSeed_eq (by rw [tag_length]; omega) hb]
  rfl

theorem jointRandSeed_head {ctx : Bytes} (hctx : ctx.length + 8 < 2 ^ 16) {parts : List Bytes} :
    Spec.jointRandSeed (runWith P T) ctx parts = .ok (headOf T (seedPos P ctx parts)) := by
  unfold Spec.jointRandSeed
  rw [deriveSeed_eq (by rw [tag_length]; omega) (by show (List.replicate 32 (0 : UInt8)).length < _; simp)]
  rfl

/-- The input is not one for the joint randomness, its seed, its parts or the query randomness. -/
def Inert (P : Prio3 (XofTurboShake128 prims fuel) F Meas Agg) (ctx m : Bytes) : Prop :=
  ∀ u s b, (u = 3 ∨ u = 5 ∨ u = 6 ∨ u = 7) → s.length < 2 ^ 8 → m ≠ turboInput s (tag P.id u ctx) b

/-- The oracles agree at the inputs in `A` and at those that are used for nothing interesting. -/
structure AgreeOn (P : Prio3 (XofTurboShake128 prims fuel) F Meas Agg) (ctx : Bytes) (T T' : Bytes → ℕ → UInt8)
    (A : Set Bytes) : Prop where
  inert : ∀ m, Inert P ctx m → T' m = T m
  on : ∀ m ∈ A, T' m = T m

theorem AgreeOn.symm {ctx : Bytes} {A : Set Bytes} (h : AgreeOn P ctx T T' A) : AgreeOn P ctx T' T A :=
  ⟨fun m hm => (h.inert m hm).symm, fun m hm => (h.on m hm).symm⟩

theorem AgreeOn.mono {ctx : Bytes} {A B : Set Bytes} (h : AgreeOn P ctx T T' A) (hB : B ⊆ A) : AgreeOn P ctx T T' B :=
  ⟨h.inert, fun m hm => h.on m (hB hm)⟩

section
variable (W : P.WF) {vk ctx : Bytes} (hctx : ctx.length + 8 < 2 ^ 16) (hvk : vk.length = 32)
include W hctx hvk

theorem usage_inert {u : ℕ} (hu : u < 2 ^ 16) (h3 : u ≠ 3) (h5 : u ≠ 5) (h6 : u ≠ 6) (h7 : u ≠ 7) {s b : Bytes}
    (hs : s.length < 2 ^ 8) : Inert P ctx (turboInput s (tag P.id u ctx) b) := by
  intro u' s' b' hu' hs' h
  have hd : ∀ u, (tag P.id u ctx).length < 2 ^ 16 := fun u => by rw [tag_length]; omega
  obtain ⟨-, h2, -⟩ := turboInput_inj (hd _) (hd _) hs hs' h
  have := tag_usage W hu (by omega) h2
  omega

/-- The usage can be read off the input. -/
theorem usage_eq {u u' : ℕ} (hu : u < 2 ^ 16) (hu' : u' < 2 ^ 16) {s s' b b' : Bytes} (hs : s.length < 2 ^ 8)
    (hs' : s'.length < 2 ^ 8) (h : turboInput s (tag P.id u ctx) b = turboInput s' (tag P.id u' ctx) b') :
    u = u' ∧ s = s' ∧ b = b' := by
  have hd : ∀ u, (tag P.id u ctx).length < 2 ^ 16 := fun u => by rw [tag_length]; omega
  obtain ⟨h1, h2, h3⟩ := turboInput_inj (hd _) (hd _) hs hs' h
  exact ⟨tag_usage W hu hu' h2, h1, h3⟩

variable {B : Set Bytes} (A : AgreeOn P ctx T T' B)
include A

theorem AgreeOn.measShare (j : ℕ) (s : Bytes) :
    Spec.measShare (runWith P T') ctx j s = Spec.measShare (runWith P T) ctx j s :=
  expandIntoVec_congr fun hs => A.inert _
    (usage_inert W hctx hvk (by norm_num) (by norm_num) (by norm_num) (by norm_num) (by norm_num) hs)

theorem AgreeOn.proofsShare (j : ℕ) (s : Bytes) :
    Spec.proofsShare (runWith P T') ctx j s = Spec.proofsShare (runWith P T) ctx j s :=
  expandIntoVec_congr fun hs => A.inert _
    (usage_inert W hctx hvk (by norm_num) (by norm_num) (by norm_num) (by norm_num) (by norm_num) hs)

theorem AgreeOn.measShares (ish : List (Prio3InputShare F)) :
    measShares (runWith P T') ctx ish = measShares (runWith P T) ctx ish := by
  unfold Spec.measShares
  apply mapRes_congr
  intro j _
  congr 1
  funext s
  cases s with
  | leader => rfl
  | helper => simp only [A.measShare W hctx hvk]

theorem AgreeOn.expandInputShare {j : ℕ} {s : Prio3InputShare F} {x : List F × List F × Option Bytes}
    (e1 : (runWith P T).expandInputShare ctx j s = .ok x) : (runWith P T').expandInputShare ctx j s = .ok x := by
  unfold Prio3.expandInputShare at e1 ⊢
  split at e1
  · next hj0 =>
    rw [if_pos hj0]
    cases s with
    | leader => cases e1
    | helper seed b =>
      dsimp only at e1 ⊢
      obtain ⟨a1, f1, e1⟩ := Except.bind_eq_ok.1 e1
      obtain ⟨a2, f2, e1⟩ := Except.bind_eq_ok.1 e1
      rw [measShare_ok, ← A.measShare W hctx hvk] at f1
      rw [proofsShare_ok, ← A.proofsShare W hctx hvk] at f2
      rw [measShare_ok.2 f1, proofsShare_ok.2 f2]
      exact e1
  · next hj0 =>
    rw [if_neg hj0]
    exact e1

omit W hctx hvk A in
theorem part_congr {j : ℕ} {b : Bytes} {ms : List F} {nonce : Bytes}
    (h : T' (partPos P ctx j b ms nonce) = T (partPos P ctx j b ms nonce)) :
    Spec.jointRandPart (runWith P T') ctx j b ms nonce = Spec.jointRandPart (runWith P T) ctx j b ms nonce := by
  unfold Spec.jointRandPart
  rw [encodeVec_eq, Except.ok_bind', Except.ok_bind']
  exact deriveSeed_congr fun _ => h

omit W hctx hvk A in
theorem seed_congr {parts : List Bytes} (h : T' (seedPos P ctx parts) = T (seedPos P ctx parts)) :
    Spec.jointRandSeed (runWith P T') ctx parts = Spec.jointRandSeed (runWith P T) ctx parts :=
  deriveSeed_congr fun _ => h

theorem AgreeOn.verifyInit {nonce : Bytes} {pub : Option (List Bytes)} {j : ℕ} {s : Prio3InputShare F}
    {st sh : List F × Option Bytes} {vk' : Bytes}
    (hq : ∀ v, Spec.queryRands (runWith P T) vk ctx nonce = .ok v → Spec.queryRands (runWith P T') vk' ctx nonce = .ok v)
    (hp : 0 < P.flp.jointRandLen → ∀ ms ps b parts a, (runWith P T).expandInputShare ctx j s = .ok (ms, ps, some b) →
      pub = some parts → Spec.jointRandPart (runWith P T) ctx j b ms nonce = .ok a → j < parts.length →
      T' (partPos P ctx j b ms nonce) = T (partPos P ctx j b ms nonce) ∧
      T' (seedPos P ctx (parts.set j a)) = T (seedPos P ctx (parts.set j a)))
    (hj : ∀ seed, st.2 = some seed → T' (jrPos P ctx seed) = T (jrPos P ctx seed))
    (h : (runWith P T).verifyInit vk ctx j () nonce pub s = .ok (st, sh)) :
    (runWith P T').verifyInit vk' ctx j () nonce pub s = .ok (st, sh) := by
  unfold Prio3.verifyInit at h ⊢
  obtain ⟨⟨ms, ps, bl⟩, e1, h⟩ := Except.bind_eq_ok.1 h
  obtain ⟨o, e2, h⟩ := Except.bind_eq_ok.1 h
  obtain ⟨⟨jrs, c, p⟩, e3, h⟩ := Except.bind_eq_ok.1 h
  obtain ⟨qrs, e4, h⟩ := Except.bind_eq_ok.1 h
  obtain ⟨w, e5, h⟩ := Except.bind_eq_ok.1 h
  have h6 := Except.ok.inj h
  have h7 : st = (o, c) := (congrArg Prod.fst h6).symm
  have h8 : sh = (w, p) := (congrArg Prod.snd h6).symm
  subst h7 h8
  have e1' := A.expandInputShare W hctx hvk e1
  have hf : (runWith P T').flp = (runWith P T).flp := rfl
  have e3' : (runWith P T').verifyJointRand ctx j nonce pub ms bl = .ok (jrs, c, p) := by
    unfold verifyJointRand at e3 ⊢
    rw [hf]
    split at e3
    · next hj0 =>
      rw [if_pos hj0]
      cases bl with
      | none => cases e3
      | some b =>
        cases pub with
        | none => cases e3
        | some parts =>
          dsimp only at e3 ⊢
          obtain ⟨a1, f1, e3⟩ := Except.bind_eq_ok.1 e3
          obtain ⟨a2, f2, e3⟩ := Except.bind_eq_ok.1 e3
          obtain ⟨a3, f3, e3⟩ := Except.bind_eq_ok.1 e3
          obtain ⟨a4, f4, e3⟩ := Except.bind_eq_ok.1 e3
          have g1 := Except.ok.inj e3
          have g2 : some a3 = c := congrArg (fun x => x.2.1) g1
          obtain ⟨k1, k2⟩ := setI_eq_ok.1 f2
          obtain ⟨k3, k4⟩ := hp hj0 ms ps b parts a1 e1 rfl (jointRandPart_ok.1 f1).2.2 k1
          rw [jointRandPart_ok, ← part_congr k3] at f1
          rw [← k2] at k4
          rw [jointRandSeed_ok, ← seed_congr k4] at f3
          have k5 : Spec.jointRands (runWith P T') ctx a3 = Spec.jointRands (runWith P T) ctx a3 :=
            expandIntoVec_congr fun _ => hj a3 g2.symm
          rw [jointRands_ok, ← k5] at f4
          rw [jointRandPart_ok.2 f1, Except.ok_bind', f2, Except.ok_bind', jointRandSeed_ok.2 f3, Except.ok_bind',
            jointRands_ok.2 f4]
          exact e3
    · next hj0 =>
      rw [if_neg hj0]
      exact e3
  have e4' : (runWith P T').queryRands vk' ctx nonce = .ok qrs := by
    obtain ⟨k1, k2, k3⟩ := queryRands_ok.1 e4
    exact queryRands_ok.2 ⟨k1, k2, hq _ k3⟩
  rw [e1', Except.ok_bind']
  dsimp only
  rw [show (runWith P T').flp.truncate ms = .ok o from e2, Except.ok_bind', e3', Except.ok_bind']
  dsimp only
  rw [e4', Except.ok_bind', show (runWith P T').queryLoop ms ps qrs jrs = .ok w from e5]
  rfl

end

/-! ### The inputs that matter for a move -/

/-- Measurement share `j` -/
def shareAt (xs : List (List F × Option Bytes)) (j : ℕ) : List F := ((xs[j]?).map Prod.fst).getD []

/-- Blind `j` -/
def blindAt (xs : List (List F × Option Bytes)) (j : ℕ) : Bytes := ((xs[j]?).bind Prod.snd).getD []

/-- The report, with its measurement shares and blinds -/
def opened (P : Prio3 (XofTurboShake128 prims fuel) F Meas Agg) (T : Bytes → ℕ → UInt8) (ctx : Bytes) (e : EncodedReport) :
    Option (Spec.Report F × List (List F × Option Bytes)) :=
  if e.nonce.length = 16 ∧ 0 < P.flp.jointRandLen then
    match decodeReport P e with
    | .error _ => none
    | .ok r =>
      match measShares (runWith P T) ctx r.inputShares with
      | .error _ => none
      | .ok xs => some (r, xs)
  else none

/-- The input for part `j` -/
def partIn (P : Prio3 (XofTurboShake128 prims fuel) F Meas Agg) (ctx nonce : Bytes) (xs : List (List F × Option Bytes))
    (j : ℕ) : Bytes := partPos P ctx j (blindAt xs j) (shareAt xs j) nonce

/-- The parts -/
def trueParts (P : Prio3 (XofTurboShake128 prims fuel) F Meas Agg) (T : Bytes → ℕ → UInt8) (ctx nonce : Bytes)
    (xs : List (List F × Option Bytes)) : List Bytes := tab P.shares fun j => headOf T (partIn P ctx nonce xs j)

/-- The joint randomness seed -/
def trueSeed (P : Prio3 (XofTurboShake128 prims fuel) F Meas Agg) (T : Bytes → ℕ → UInt8) (ctx nonce : Bytes)
    (xs : List (List F × Option Bytes)) : Bytes := headOf T (seedPos P ctx (trueParts P T ctx nonce xs))

/-- The inputs for the parts -/
def inp7 (P : Prio3 (XofTurboShake128 prims fuel) F Meas Agg) (T : Bytes → ℕ → UInt8) (ctx : Bytes) : OracleMove → List Bytes
  | .query m => [m]
  | .submit e => match opened P T ctx e with
    | none => []
    | some (_, xs) => tab P.shares fun j => partIn P ctx e.nonce xs j

/-- The inputs for the seeds: the one of the report, and those the Aggregators compute -/
def inp6 (P : Prio3 (XofTurboShake128 prims fuel) F Meas Agg) (T : Bytes → ℕ → UInt8) (ctx : Bytes) : OracleMove → List Bytes
  | .query m => [m]
  | .submit e => match opened P T ctx e with
    | none => []
    | some (r, xs) => seedPos P ctx (trueParts P T ctx e.nonce xs) ::
        tab P.shares fun j => seedPos P ctx ((r.publicShare.getD []).set j (headOf T (partIn P ctx e.nonce xs j)))

/-- The inputs for the joint randomness -/
def inp3 (P : Prio3 (XofTurboShake128 prims fuel) F Meas Agg) (T : Bytes → ℕ → UInt8) (ctx : Bytes) : OracleMove → List Bytes
  | .query m => [m]
  | .submit e => match opened P T ctx e with
    | none => []
    | some (_, xs) => [jrPos P ctx (trueSeed P T ctx e.nonce xs)]

/-- The inputs for the query randomness -/
def inp5 (P : Prio3 (XofTurboShake128 prims fuel) F Meas Agg) (vk ctx : Bytes) : OracleMove → List Bytes
  | .query m => [m]
  | .submit e => [qrPos P vk ctx e.nonce]

/-- All of them -/
def touched (P : Prio3 (XofTurboShake128 prims fuel) F Meas Agg) (T : Bytes → ℕ → UInt8) (vk ctx : Bytes)
    (mv : OracleMove) : Set Bytes :=
  {m | m ∈ inp7 P T ctx mv ∨ m ∈ inp6 P T ctx mv ∨ m ∈ inp3 P T ctx mv ∨ m ∈ inp5 P vk ctx mv}

theorem opened_iff {ctx : Bytes} {e : EncodedReport} {r : Spec.Report F} {xs : List (List F × Option Bytes)} :
    opened P T ctx e = some (r, xs) ↔ (e.nonce.length = 16 ∧ 0 < P.flp.jointRandLen) ∧ decodeReport P e = .ok r ∧
      measShares (runWith P T) ctx r.inputShares = .ok xs := by
  unfold opened
  split
  · next h =>
    cases h1 : decodeReport P e with
    | error => simp
    | ok r' =>
      simp only [h, Except.ok.injEq, true_and]
      constructor
      · intro h3
        split at h3
        · cases h3
        · next xs' h2 =>
          cases h3
          exact ⟨rfl, h2⟩
      · rintro ⟨rfl, h3⟩
        rw [h3]
  · next h => simp [h]

theorem decodeReport_ok {X : Xof} {P : Prio3 X F Meas Agg} {e : EncodedReport} {r : Spec.Report F}
    (h : decodeReport P e = .ok r) : r.nonce = e.nonce ∧ P.decodePublicShare e.publicShare = .ok r.publicShare ∧
      r.inputShares.length = P.shares ∧
      ∀ j < P.shares, ∃ s, r.inputShares[j]? = some s ∧ Spec.InputShareShape P j s := by
  unfold Spec.decodeReport at h
  obtain ⟨pub, h1, h⟩ := Except.bind_eq_ok.1 h
  obtain ⟨l, h2, h⟩ := Except.bind_eq_ok.1 h
  cases h
  obtain ⟨h3, h4⟩ := mapRes_range_iff.1 h2
  refine ⟨rfl, h1, h3, fun j hj => ?_⟩
  obtain ⟨s, h5, h6⟩ := h4 j hj
  obtain ⟨b, -, h7⟩ := Except.bind_eq_ok.1 h5
  exact ⟨s, h6, (decodeInputShare_ok.1 h7).1⟩

/-- What is known about a report that has been decoded -/
structure WellFormed (P : Prio3 (XofTurboShake128 prims fuel) F Meas Agg) (r : Spec.Report F)
    (xs : List (List F × Option Bytes)) : Prop where
  share : ∀ j < P.shares, (shareAt xs j).length = P.flp.measLen
  blind : ∀ j < P.shares, xs[j]? = some (shareAt xs j, some (blindAt xs j)) ∧ (blindAt xs j).length = 32
  pub : ∃ pub, r.publicShare = some pub ∧ pub.length = P.shares ∧ ∀ p ∈ pub, p.length = 32
  length : xs.length = P.shares

theorem opened_wf {ctx : Bytes} {e : EncodedReport} {r : Spec.Report F} {xs : List (List F × Option Bytes)}
    (h : opened P T ctx e = some (r, xs)) : WellFormed P r xs := by
  obtain ⟨⟨h1, h2⟩, h3, h4⟩ := opened_iff.1 h
  obtain ⟨k1, k2, k3, k4⟩ := decodeReport_ok h3
  unfold Spec.measShares at h4
  obtain ⟨k5, k6⟩ := mapRes_range_iff.1 h4
  have k7 : ∀ j < P.shares, ∃ ms b, xs[j]? = some (ms, some b) ∧ ms.length = P.flp.measLen ∧ b.length = 32 := by
    intro j hj
    obtain ⟨s, h5, h6⟩ := k4 j hj
    obtain ⟨x, h7, h8⟩ := k6 j hj
    rw [getI_of_some h5, Except.ok_bind'] at h7
    have hopt : ∀ bl, Spec.OptSeed P bl → ∃ b : Bytes, bl = some b ∧ b.length = 32 := by
      intro bl hb
      cases bl with
      | none => simp only [Spec.OptSeed] at hb; omega
      | some b => exact ⟨b, rfl, hb.2⟩
    cases s with
    | leader ms ps bl =>
      obtain ⟨rfl, g1, g2, g3⟩ := h6
      obtain ⟨b, rfl, hb⟩ := hopt _ g3
      cases h7
      exact ⟨ms, b, h8, g1, hb⟩
    | helper seed bl =>
      obtain ⟨g1, g2, g3⟩ := h6
      obtain ⟨b, rfl, hb⟩ := hopt _ g3
      dsimp only at h7
      rw [if_neg g1] at h7
      obtain ⟨ms, g4, g5⟩ := Except.bind_eq_ok.1 h7
      cases g5
      exact ⟨ms, b, h8, expandIntoVec_length g4, hb⟩
  refine ⟨fun j hj => ?_, fun j hj => ?_, ?_, k5⟩
  · obtain ⟨ms, b, g1, g2, g3⟩ := k7 j hj
    simp only [shareAt, g1]
    exact g2
  · obtain ⟨ms, b, g1, g2, g3⟩ := k7 j hj
    simp only [shareAt, blindAt, g1]
    exact ⟨rfl, g3⟩
  · have g1 := ((decodePublicShare_ok h2).1 k2).1
    cases hp : r.publicShare with
    | none => rw [hp] at g1; simp only [Spec.PublicShareShape] at g1; omega
    | some pub =>
      rw [hp] at g1
      exact ⟨pub, rfl, g1.2.1, g1.2.2⟩

theorem decodeReport_runWith (e : EncodedReport) : decodeReport (runWith P T) e = decodeReport P e := rfl

section
variable (W : P.WF) {vk ctx : Bytes} (hctx : ctx.length + 8 < 2 ^ 16) (hvk : vk.length = 32)
include W hctx hvk

section
variable {B : Set Bytes} (A : AgreeOn P ctx T T' B)
include A

theorem AgreeOn.opened (e : EncodedReport) : opened P T' ctx e = opened P T ctx e := by
  unfold Prio3.opened
  simp only [A.measShares W hctx hvk]

theorem AgreeOn.at7 (mv : OracleMove) : inp7 P T' ctx mv = inp7 P T ctx mv := by
  unfold Prio3.inp7
  simp only [A.opened W hctx hvk]

theorem AgreeOn.at6 {mv : OracleMove} (h : ∀ m ∈ inp7 P T ctx mv, T' m = T m) : inp6 P T' ctx mv = inp6 P T ctx mv := by
  unfold Prio3.inp7 at h
  unfold Prio3.inp6
  cases mv with
  | query => rfl
  | submit e =>
    simp only [A.opened W hctx hvk]
    cases ho : Prio3.opened P T ctx e with
    | none => rfl
    | some x =>
      obtain ⟨r, xs⟩ := x
      simp only [ho] at h
      have h1 : ∀ j < P.shares, headOf T' (partIn P ctx e.nonce xs j) = headOf T (partIn P ctx e.nonce xs j) :=
        fun j hj => headOf_congr (h _ (List.mem_map.2 ⟨j, List.mem_range.2 hj, rfl⟩))
      have h2 : trueParts P T' ctx e.nonce xs = trueParts P T ctx e.nonce xs :=
        List.map_congr_left fun j hj => h1 j (List.mem_range.1 hj)
      simp only [h2, List.cons.injEq, true_and]
      exact List.map_congr_left fun j hj => by rw [h1 j (List.mem_range.1 hj)]

theorem AgreeOn.at3 {mv : OracleMove} (h : ∀ m ∈ inp7 P T ctx mv, T' m = T m) (h' : ∀ m ∈ inp6 P T ctx mv, T' m = T m) :
    inp3 P T' ctx mv = inp3 P T ctx mv := by
  unfold Prio3.inp7 at h
  unfold Prio3.inp6 at h'
  unfold Prio3.inp3
  cases mv with
  | query => rfl
  | submit e =>
    simp only [A.opened W hctx hvk]
    cases ho : Prio3.opened P T ctx e with
    | none => rfl
    | some x =>
      obtain ⟨r, xs⟩ := x
      simp only [ho] at h h'
      have h1 : ∀ j < P.shares, headOf T' (partIn P ctx e.nonce xs j) = headOf T (partIn P ctx e.nonce xs j) :=
        fun j hj => headOf_congr (h _ (List.mem_map.2 ⟨j, List.mem_range.2 hj, rfl⟩))
      have h2 : trueParts P T' ctx e.nonce xs = trueParts P T ctx e.nonce xs :=
        List.map_congr_left fun j hj => h1 j (List.mem_range.1 hj)
      have h3 : trueSeed P T' ctx e.nonce xs = trueSeed P T ctx e.nonce xs := by
        unfold trueSeed
        rw [h2]
        exact headOf_congr (h' _ (List.mem_cons_self ..))
      simp only [h3]

end

theorem AgreeOn.touched {mv : OracleMove} (A : AgreeOn P ctx T T' (touched P T vk ctx mv)) :
    touched P T' vk ctx mv = touched P T vk ctx mv := by
  have h7 : ∀ m ∈ Prio3.inp7 P T ctx mv, T' m = T m := fun m hm => A.on m (.inl hm)
  have h6 : ∀ m ∈ Prio3.inp6 P T ctx mv, T' m = T m := fun m hm => A.on m (.inr (.inl hm))
  unfold Prio3.touched
  rw [A.at7 W hctx hvk, A.at6 W hctx hvk h7, A.at3 W hctx hvk h7 h6]

/-- What an accepted report looks like -/
theorem accepted_open (hj0 : 0 < P.flp.jointRandLen) {e : EncodedReport} (hn : e.nonce.length = 16) {r : Spec.Report F}
    (hr : decodeReport P e = .ok r)
    {ish : ℕ → Prio3InputShare F} {st sh : ℕ → List F × Option Bytes} {msg : Option Bytes}
    (hl : ∀ j < P.shares, r.inputShares[j]? = some (ish j))
    (h : Spec.VerifySucceeds (runWith P T) vk ctx r.nonce r.publicShare ish st sh msg) :
    ∃ xs, opened P T ctx e = some (r, xs) ∧ msg = some (trueSeed P T ctx e.nonce xs) ∧
      (∀ j < P.shares, (st j).2 = msg) ∧
      (∀ j < P.shares, (sh j).2 = some (headOf T (partIn P ctx e.nonce xs j))) ∧
      ∀ j < P.shares, ∃ ps, (runWith P T).expandInputShare ctx j (ish j) = .ok (shareAt xs j, ps, some (blindAt xs j)) := by
  have hN : 0 < (runWith P T).shares := by have := W.shares_ge; show 0 < P.shares; omega
  obtain ⟨ms, ps, bl, jrs, qrs, h1, h2, h3, h4⟩ := joint_of_success hN h
  have hnn := (decodeReport_ok hr).1
  rcases h2 with ⟨h0, -⟩ | ⟨-, b, parts, s, rfl, k1, k2, k3⟩
  · exact absurd h0 (by show ¬ P.flp.jointRandLen = 0; omega)
  have h5 : Spec.measShares (runWith P T) ctx r.inputShares = .ok (tab P.shares fun j => (ms j, bl j)) := by
    unfold Spec.measShares
    apply mapRes_range_tab
    intro j hj
    rw [getI_of_some (hl j hj), Except.ok_bind']
    rcases expandInputShare_ok (h1 j hj) with ⟨rfl, e⟩ | ⟨h0, s, e, e1, e2⟩
    · rw [e]; rfl
    · rw [e]
      dsimp only
      rw [if_neg (by omega), e1]
      rfl
  have ho : opened P T ctx e = some (r, tab P.shares fun j => (ms j, bl j)) := opened_iff.2 ⟨⟨hn, hj0⟩, hr, h5⟩
  have wf := opened_wf ho
  have hsh : ∀ j < P.shares, shareAt (tab P.shares fun j => (ms j, bl j)) j = ms j := by
    intro j hj
    simp [shareAt, tab, hj]
  have hbl : ∀ j < P.shares, blindAt (tab P.shares fun j => (ms j, bl j)) j = b j := by
    intro j hj
    simp [blindAt, tab, hj, (k1 j hj).1]
  have hpt : ∀ j < P.shares, parts j = headOf T (partIn P ctx e.nonce (tab P.shares fun j => (ms j, bl j)) j) := by
    intro j hj
    have g1 := (jointRandPart_ok.1 (k1 j hj).2).2.2
    have hb : (b j).length < 2 ^ 8 := by rw [← hbl j hj, (wf.blind j hj).2]; norm_num
    rw [jointRandPart_head hctx hb] at g1
    unfold partIn
    rw [hsh j hj, hbl j hj, ← hnn]
    exact (Except.ok.inj g1).symm
  have hpts : trueParts P T ctx e.nonce (tab P.shares fun j => (ms j, bl j)) = (List.range P.shares).map parts :=
    List.map_congr_left fun j hj => (hpt j (List.mem_range.1 hj)).symm
  refine ⟨_, ho, ?_, fun j hj => (h4 j hj).1, fun j hj => ?_, fun j hj => ⟨ps j, ?_⟩⟩
  · have g1 := (jointRandSeed_ok.1 k2).2
    rw [jointRandSeed_head hctx] at g1
    unfold trueSeed
    rw [hpts]
    exact congrArg some (Except.ok.inj g1).symm
  · rw [← hpt j hj]
    have := h.1 j hj
    unfold verifyInit at this
    obtain ⟨⟨ms', ps', bl'⟩, e1, this⟩ := Except.bind_eq_ok.1 this
    obtain ⟨o, e2, this⟩ := Except.bind_eq_ok.1 this
    obtain ⟨⟨jrs', c, p⟩, e3, this⟩ := Except.bind_eq_ok.1 this
    obtain ⟨qrs', e4, this⟩ := Except.bind_eq_ok.1 this
    obtain ⟨w, e5, this⟩ := Except.bind_eq_ok.1 this
    have h8 : sh j = (w, p) := (congrArg Prod.snd (Except.ok.inj this)).symm
    rw [h1 j hj] at e1
    simp only [Except.ok.injEq, Prod.mk.injEq] at e1
    obtain ⟨rfl, rfl, rfl⟩ := e1
    unfold verifyJointRand at e3
    rw [if_pos (show (runWith P T).flp.jointRandLen > 0 from hj0), (k1 j hj).1] at e3
    obtain ⟨pub, hp, -⟩ := wf.pub
    rw [hp] at e3
    dsimp only at e3
    rw [(k1 j hj).2, Except.ok_bind'] at e3
    obtain ⟨a2, f2, e3⟩ := Except.bind_eq_ok.1 e3
    obtain ⟨a3, f3, e3⟩ := Except.bind_eq_ok.1 e3
    obtain ⟨a4, f4, e3⟩ := Except.bind_eq_ok.1 e3
    rw [h8]
    exact (congrArg (fun x => x.2.2) (Except.ok.inj e3)).symm
  · rw [hsh j hj, hbl j hj, ← (k1 j hj).1]
    exact h1 j hj

theorem AgreeOn.accepts_gen {e : EncodedReport} (hn : e.nonce.length = 16) {r : Spec.Report F}
    (hr : decodeReport P e = .ok r) {vk' : Bytes}
    (hq : ∀ v, Spec.queryRands (runWith P T) vk ctx r.nonce = .ok v → Spec.queryRands (runWith P T') vk' ctx r.nonce = .ok v)
    (A : AgreeOn P ctx T T' {m | m ∈ Prio3.inp7 P T ctx (.submit e) ∨ m ∈ Prio3.inp6 P T ctx (.submit e) ∨
      m ∈ Prio3.inp3 P T ctx (.submit e)})
    (ha : Spec.accepts (runWith P T) vk ctx r = true) : Spec.accepts (runWith P T') vk' ctx r = true := by
  obtain ⟨ish, st, sh, msg, h1, h2⟩ := accepts_iff.1 ha
  have hnn := (decodeReport_ok hr).1
  have hlen := sharesToMessage_lengths h2.2.1
  have hlen' : ∀ j < P.shares, (sh j).1.length = P.flp.verifierLen * P.proofs := fun j hj =>
    hlen (sh j) (List.mem_map.2 ⟨j, List.mem_range.2 hj, rfl⟩)
  have hsht : (List.range (runWith P T).shares).map sh = tab P.shares fun j => ((sh j).1, (sh j).2) := rfl
  have h22 := h2.2.1
  rw [hsht] at h22
  by_cases hj0 : 0 < P.flp.jointRandLen
  · obtain ⟨xs, ho, hmsg, hst, hsh, hex⟩ := accepted_open W hctx hvk hj0 hn hr h1 h2
    have wf := opened_wf ho
    have i7 : ∀ j < P.shares, T' (partIn P ctx e.nonce xs j) = T (partIn P ctx e.nonce xs j) := fun j hj =>
      A.on _ (.inl (by simp only [Prio3.inp7, ho]; exact List.mem_map.2 ⟨j, List.mem_range.2 hj, rfl⟩))
    have i6 : T' (seedPos P ctx (trueParts P T ctx e.nonce xs)) = T (seedPos P ctx (trueParts P T ctx e.nonce xs)) :=
      A.on _ (.inr (.inl (by simp only [Prio3.inp6, ho]; exact List.mem_cons_self ..)))
    have i3 : T' (jrPos P ctx (trueSeed P T ctx e.nonce xs)) = T (jrPos P ctx (trueSeed P T ctx e.nonce xs)) :=
      A.on _ (.inr (.inr (by simp [Prio3.inp3, ho])))
    refine accepts_iff.2 ⟨ish, st, sh, msg, h1, fun j hj => ?_, ?_, h2.2.2⟩
    · refine A.verifyInit W hctx hvk hq (fun _ ms ps b parts a g1 g2 g3 g4 => ?_) (fun s hs => ?_) (h2.1 j hj)
      · obtain ⟨ps', g5⟩ := hex j hj
        rw [g5] at g1
        simp only [Except.ok.injEq, Prod.mk.injEq, Option.some.injEq] at g1
        obtain ⟨rfl, rfl, rfl⟩ := g1
        rw [jointRandPart_head hctx (by rw [(wf.blind j hj).2]; norm_num)] at g3
        have g3 := Except.ok.inj g3
        rw [hnn] at g3 ⊢
        refine ⟨i7 j hj, ?_⟩
        rw [← g3]
        refine A.on _ (.inr (.inl ?_))
        simp only [Prio3.inp6, ho, g2]
        exact List.mem_cons_of_mem _ (List.mem_map.2 ⟨j, List.mem_range.2 hj, rfl⟩)
      · rw [hst j hj, hmsg] at hs
        rw [← Option.some.inj hs]
        exact i3
    · show (runWith P T').sharesToMessage ctx () (tab P.shares fun j => ((sh j).1, (sh j).2)) = _
      have hn : ∀ T'', (runWith P T'').sharesToMessage ctx () (tab P.shares fun j => ((sh j).1, (sh j).2)) = _ := fun T'' =>
        sharesToMessage_eq (P := runWith P T'') (pb := fun j => headOf T (partIn P ctx e.nonce xs j)) hlen'
          (fun _ j hj => hsh j hj)
      rw [hn] at h22 ⊢
      obtain ⟨u, f1, h22⟩ := Except.bind_eq_ok.1 h22
      refine Except.bind_eq_ok.2 ⟨u, f1, ?_⟩
      rw [if_pos (show (runWith P T).flp.jointRandLen > 0 from hj0)] at h22
      rw [if_pos (show (runWith P T').flp.jointRandLen > 0 from hj0)]
      obtain ⟨s, f2, h22⟩ := Except.bind_eq_ok.1 h22
      rw [jointRandSeed_ok, ← trueParts, ← seed_congr (T' := T') i6] at f2
      exact Except.bind_eq_ok.2 ⟨s, jointRandSeed_ok.2 f2, h22⟩
  · have hN : 0 < (runWith P T).shares := by have := W.shares_ge; show 0 < P.shares; omega
    obtain ⟨ms, ps, bl, jrs, qrs, g1, g2, g3, g4⟩ := joint_of_success hN h2
    have hmsg : msg = none := by
      rcases g2 with ⟨-, g, -⟩ | ⟨g, -⟩
      · exact g
      · exact absurd g hj0
    refine accepts_iff.2 ⟨ish, st, sh, msg, h1, fun j hj => ?_, ?_, h2.2.2⟩
    · refine A.verifyInit W hctx hvk hq (fun h => absurd h hj0) (fun s hs => ?_) (h2.1 j hj)
      rw [(g4 j hj).1, hmsg] at hs
      cases hs
    · show (runWith P T').sharesToMessage ctx () (tab P.shares fun j => ((sh j).1, (sh j).2)) = _
      have hn : ∀ T'', (runWith P T'').sharesToMessage ctx () (tab P.shares fun j => ((sh j).1, (sh j).2)) = _ := fun T'' =>
        sharesToMessage_eq (P := runWith P T'') (pb := fun _ => []) hlen' (fun h => absurd h hj0)
      rw [hn] at h22 ⊢
      obtain ⟨u, f1, h22⟩ := Except.bind_eq_ok.1 h22
      refine Except.bind_eq_ok.2 ⟨u, f1, ?_⟩
      rw [if_neg (show ¬ (runWith P T).flp.jointRandLen > 0 from hj0)] at h22
      rw [if_neg (show ¬ (runWith P T').flp.jointRandLen > 0 from hj0)]
      exact h22

theorem AgreeOn.accepts_of {e : EncodedReport} (hn : e.nonce.length = 16) {r : Spec.Report F}
    (hr : decodeReport P e = .ok r) (A : AgreeOn P ctx T T' (Prio3.touched P T vk ctx (.submit e)))
    (ha : Spec.accepts (runWith P T) vk ctx r = true) : Spec.accepts (runWith P T') vk ctx r = true := by
  refine AgreeOn.accepts_gen W hctx hvk hn hr (fun v hv => ?_) (A.mono ?_) ha
  · rw [← hv]
    refine expandIntoVec_congr fun _ => A.on _ (.inr (.inr (.inr ?_)))
    rw [(decodeReport_ok hr).1]
    exact List.mem_singleton.2 rfl
  · rintro m (h | h | h)
    · exact .inl h
    · exact .inr (.inl h)
    · exact .inr (.inr (.inl h))

theorem AgreeOn.respond {mv : OracleMove} (A : AgreeOn P ctx T T' (Prio3.touched P T vk ctx mv))
    (hist : List (OracleMove × OracleReply)) :
    oracleRespond (runWith P T') vk ctx hist mv = oracleRespond (runWith P T) vk ctx hist mv := by
  cases mv with
  | query m =>
    simp only [Spec.oracleRespond, withOracle, if_true]
    rw [A.on m (.inl (by simp [Prio3.inp7]))]
  | submit e =>
    simp only [Spec.oracleRespond]
    by_cases hr : e.nonce.length = 16
    · congr 2
      unfold Spec.acceptsEncoded
      rw [decodeReport_runWith, decodeReport_runWith]
      cases hd : decodeReport P e with
      | error => rfl
      | ok r =>
        dsimp only
        have A' : AgreeOn P ctx T' T (Prio3.touched P T' vk ctx (.submit e)) := by
          rw [A.touched W hctx hvk]
          exact A.symm
        rw [Bool.eq_iff_iff]
        exact ⟨A'.accepts_of W hctx hvk hr hd, A.accepts_of W hctx hvk hr hd⟩
    · simp [hr]

theorem AgreeOn.run {σ : OracleStrategy} {t : ℕ}
    (h : ∀ x ∈ oracleRun (runWith P T) vk ctx σ t, AgreeOn P ctx T T' (Prio3.touched P T vk ctx x.1)) :
    oracleRun (runWith P T') vk ctx σ t = oracleRun (runWith P T) vk ctx σ t := by
  induction t with
  | zero => rfl
  | succ t ih =>
    simp only [Spec.oracleRun] at h ⊢
    rw [ih fun x hx => h x (by simp [hx])]
    rw [(h _ (List.mem_append_right _ (List.mem_singleton.2 rfl))).respond W hctx hvk]

end

/-- The moves -/
def moveAt (P : Prio3 (XofTurboShake128 prims fuel) F Meas Agg) (T : Bytes → ℕ → UInt8) (vk ctx : Bytes)
    (σ : OracleStrategy) (t : ℕ) : OracleMove := σ ((oracleRun (runWith P T) vk ctx σ t).map Prod.snd)

/-- The inputs that matter for the moves before move `t` -/
def Seen (P : Prio3 (XofTurboShake128 prims fuel) F Meas Agg) (T : Bytes → ℕ → UInt8) (vk ctx : Bytes)
    (σ : OracleStrategy) (t : ℕ) : Set Bytes := {m | ∃ k < t, m ∈ touched P T vk ctx (moveAt P T vk ctx σ k)}

theorem mem_oracleRun {vk ctx : Bytes} {σ : OracleStrategy} {t : ℕ}
    {x : OracleMove × OracleReply} : x ∈ oracleRun (runWith P T) vk ctx σ t ↔ ∃ k < t,
      x = (moveAt P T vk ctx σ k, oracleRespond (runWith P T) vk ctx (oracleRun (runWith P T) vk ctx σ k)
        (moveAt P T vk ctx σ k)) := by
  induction t with
  | zero => simp [Spec.oracleRun]
  | succ t ih =>
    simp only [Spec.oracleRun, List.mem_append, List.mem_singleton, ih]
    constructor
    · rintro (⟨k, hk, h⟩ | h)
      · exact ⟨k, by omega, h⟩
      · exact ⟨t, by omega, h⟩
    · rintro ⟨k, hk, h⟩
      rcases Nat.lt_succ_iff_lt_or_eq.1 hk with h' | rfl
      · exact .inl ⟨k, h', h⟩
      · exact .inr h

theorem mem_sentNonces {hist : List (OracleMove × OracleReply)} {nonce : Bytes} :
    nonce ∈ sentNonces hist ↔ ∃ r v, (.submit r, v) ∈ hist ∧ r.nonce = nonce := by
  unfold Spec.sentNonces
  rw [List.mem_filterMap]
  constructor
  · rintro ⟨⟨mv, v⟩, h1, h2⟩
    cases mv with
    | query => cases h2
    | submit r => exact ⟨r, v, h1, Option.some.inj h2⟩
  · rintro ⟨r, v, h1, h2⟩
    exact ⟨_, h1, congrArg some h2⟩

theorem mem_sentNonces_run {vk ctx : Bytes} {σ : OracleStrategy} {t : ℕ} {nonce : Bytes} :
    nonce ∈ sentNonces (oracleRun (runWith P T) vk ctx σ t) ↔
      ∃ k < t, ∃ e, moveAt P T vk ctx σ k = .submit e ∧ e.nonce = nonce := by
  rw [mem_sentNonces]
  constructor
  · rintro ⟨e, v, h1, h2⟩
    obtain ⟨k, hk, h3⟩ := mem_oracleRun.1 h1
    exact ⟨k, hk, e, (congrArg Prod.fst h3).symm, h2⟩
  · rintro ⟨k, hk, e, h1, h2⟩
    exact ⟨e, oracleRespond (runWith P T) vk ctx (oracleRun (runWith P T) vk ctx σ k) (moveAt P T vk ctx σ k),
      mem_oracleRun.2 ⟨k, hk, Prod.ext h1.symm rfl⟩, h2⟩

/-- An accepted report, with the state of the game when it is sent -/
theorem sent_accepted {vk ctx : Bytes} {σ : OracleStrategy} {q : ℕ}
    {e : EncodedReport} : (.submit e, .verdict true) ∈ oracleRun (runWith P T) vk ctx σ q ↔ ∃ t < q,
      moveAt P T vk ctx σ t = .submit e ∧ e.nonce.length = 16 ∧
        e.nonce ∉ sentNonces (oracleRun (runWith P T) vk ctx σ t) ∧ acceptsEncoded (runWith P T) vk ctx e = true := by
  rw [mem_oracleRun]
  constructor
  · rintro ⟨t, ht, h⟩
    rw [Prod.mk.injEq] at h
    obtain ⟨h1, h2⟩ := h
    rw [← h1] at h2
    simp only [Spec.oracleRespond, OracleReply.verdict.injEq, Bool.true_eq, Bool.and_eq_true, decide_eq_true_eq] at h2
    exact ⟨t, ht, h1.symm, h2.1.1, h2.1.2, h2.2⟩
  · rintro ⟨t, ht, h1, h2, h3, h4⟩
    refine ⟨t, ht, ?_⟩
    rw [h1, Prod.mk.injEq]
    simp [Spec.oracleRespond, h2, h3, h4]

theorem acceptsEncoded_iff {X : Xof} {P : Prio3 X F Meas Agg} {vk ctx : Bytes} {e : EncodedReport} :
    acceptsEncoded P vk ctx e = true ↔ ∃ r, decodeReport P e = .ok r ∧ accepts P vk ctx r = true := by
  unfold Spec.acceptsEncoded
  split
  · next r h => simp [h]
  · next h => simp [h]

section
variable (W : P.WF) {vk ctx : Bytes} (hctx : ctx.length + 8 < 2 ^ 16) (hvk : vk.length = 32)
include W hctx hvk

/-- The moves up to `t` depend only on the oracle at the inputs that matter for the moves before `t`. -/
theorem AgreeOn.seen {σ : OracleStrategy} {t : ℕ} (A : AgreeOn P ctx T T' (Seen P T vk ctx σ t)) :
    oracleRun (runWith P T') vk ctx σ t = oracleRun (runWith P T) vk ctx σ t ∧
      (∀ k ≤ t, moveAt P T' vk ctx σ k = moveAt P T vk ctx σ k) ∧
      (∀ k < t, Prio3.touched P T' vk ctx (moveAt P T' vk ctx σ k) = Prio3.touched P T vk ctx (moveAt P T vk ctx σ k)) ∧
      ∀ k ≤ t, Seen P T' vk ctx σ k = Seen P T vk ctx σ k := by
  have hrun : ∀ k ≤ t, oracleRun (runWith P T') vk ctx σ k = oracleRun (runWith P T) vk ctx σ k := by
    intro k hk
    apply AgreeOn.run W hctx hvk
    intro x hx
    obtain ⟨i, hi, rfl⟩ := mem_oracleRun.1 hx
    exact A.mono fun m hm => ⟨i, by omega, hm⟩
  have hmove : ∀ k ≤ t, moveAt P T' vk ctx σ k = moveAt P T vk ctx σ k := by
    intro k hk
    unfold moveAt
    rw [hrun k hk]
  have ht : ∀ k < t, Prio3.touched P T' vk ctx (moveAt P T' vk ctx σ k) =
      Prio3.touched P T vk ctx (moveAt P T vk ctx σ k) := by
    intro k hk
    rw [hmove k (by omega)]
    exact (A.mono fun m hm => ⟨k, hk, hm⟩).touched W hctx hvk
  refine ⟨hrun t le_rfl, hmove, ht, fun k hk => ?_⟩
  ext m
  constructor
  · rintro ⟨i, hi, h⟩
    exact ⟨i, hi, by rw [← ht i (by omega)]; exact h⟩
  · rintro ⟨i, hi, h⟩
    exact ⟨i, hi, by rw [ht i (by omega)]; exact h⟩

end
end Vdaf.Prio3
