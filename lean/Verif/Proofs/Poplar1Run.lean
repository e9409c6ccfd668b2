import Verif.Proofs.Poplar1Verify
import Verif.Spec.Poplar1

/-! Honest executions of Poplar1 with `run_vdaf`. -/

set_option linter.unusedSectionVars false

namespace Vdaf
open Finset

namespace Poplar1
variable {P : Poplar1} {prims : Prims} {fuel : ℕ}

theorem verifyRand_good {vk ctx nonce : Bytes} (hvk : vk.length = 32) (hc : Idpf.CtxOk ctx) {level : ℕ}
    (hl : level < 2 ^ 16) (n : ℕ) :
    Good (fun e => e = .fuel) (P.verifyRand prims fuel vk ctx nonce level n) fun r => r.length = n := by
  unfold verifyRand
  obtain ⟨tag, hd, hdl⟩ := dst_ok (show USAGE_VERIFY_RAND < 2 ^ 16 by decide) hc
  rw [hd]
  simp only [Except.ok_bind']
  rw [toBeBytes_nat (show level < 256 ^ 2 by simpa using hl)]
  simp only [Except.ok_bind']
  obtain ⟨x, hx⟩ := xof_init (prims := prims) (fuel := fuel) vk tag _ hvk hdl
  rw [hx]
  simp only [Except.ok_bind']
  refine (nextVec_good x n).bind ?_
  rintro ⟨v, x'⟩ - h
  exact Good.pure h

/-- The sum of the components of the two parties' values -/
def tot {κ : Kind} (v0 v1 : List (List (Fk κ))) (i t : ℕ) : Fk κ := ent v0 i t + ent v1 i t

/-- The value that is zero if verification succeeds, in terms of the sums of the shares -/
def sigma {κ : Kind} (n : ℕ) (d h r : ℕ → Fk κ) (a b c A B : Fk κ) : Fk κ :=
  (a + ∑ i ∈ range n, d i * r i) ^ 2 - (b + ∑ i ∈ range n, d i * r i ^ 2) - (c + ∑ i ∈ range n, h i * r i) +
    A * (a + ∑ i ∈ range n, d i * r i) + B

theorem sigma_eq {κ : Kind} (v0 v1 : List (List (Fk κ))) (r : List (Fk κ)) (a0 b0 c0 a1 b1 c1 A0 B0 A1 B1 : Fk κ) :
    let z0 := (sums (a0, b0, c0) v0 r).1 + (sums (a1, b1, c1) v1 r).1
    let z1 := (sums (a0, b0, c0) v0 r).2.1 + (sums (a1, b1, c1) v1 r).2.1
    let z2 := (sums (a0, b0, c0) v0 r).2.2 + (sums (a1, b1, c1) v1 r).2.2
    (((0 : ℕ) : Fk κ) * (z0 ^ 2 - z1 - z2) + A0 * z0 + B0) + (((1 : ℕ) : Fk κ) * (z0 ^ 2 - z1 - z2) + A1 * z0 + B1) =
      sigma r.length (fun i => tot v0 v1 i 0) (fun i => tot v0 v1 i 1) (fun i => coef r i)
        (a0 + a1) (b0 + b1) (c0 + c1) (A0 + A1) (B0 + B1) := by
  intro z0 z1 z2
  have e0 : z0 = a0 + a1 + ∑ i ∈ range r.length, tot v0 v1 i 0 * coef r i := by
    simp only [z0, sums, tot, add_mul, sum_add_distrib]
    ring
  have e1 : z1 = b0 + b1 + ∑ i ∈ range r.length, tot v0 v1 i 0 * coef r i ^ 2 := by
    simp only [z1, sums, tot, add_mul, sum_add_distrib]
    ring
  have e2 : z2 = c0 + c1 + ∑ i ∈ range r.length, tot v0 v1 i 1 * coef r i := by
    simp only [z2, sums, tot, add_mul, sum_add_distrib]
    ring
  unfold sigma
  rw [← e0, ← e1, ← e2]
  push_cast
  ring

theorem sigma_honest {κ : Kind} {n : ℕ} {d h r : ℕ → Fk κ} {a b c A B k : Fk κ}
    (hd : (∀ i < n, d i = 0) ∨ ∃ i0 < n, ∀ i < n, d i = if i = i0 then 1 else 0)
    (hh : ∀ i < n, h i = k * d i) (hA : A = -2 * a + k) (hB : B = a ^ 2 + b - a * k + c) :
    sigma n d h r a b c A B = 0 := by
  have hW : ∑ i ∈ range n, h i * r i = k * ∑ i ∈ range n, d i * r i := by
    rw [mul_sum]
    refine sum_congr rfl fun i hi => ?_
    rw [hh i (mem_range.1 hi)]
    ring
  have hXY : (∑ i ∈ range n, d i * r i) ^ 2 = ∑ i ∈ range n, d i * r i ^ 2 := by
    rcases hd with hd | ⟨i0, h0, hd⟩
    · rw [sum_eq_zero (fun i hi => by rw [hd i (mem_range.1 hi), zero_mul]),
        sum_eq_zero (fun i hi => by rw [hd i (mem_range.1 hi), zero_mul])]
      ring
    · have : ∀ f : ℕ → Fk κ, ∑ i ∈ range n, d i * f i = f i0 := by
        intro f
        rw [sum_eq_single_of_mem i0 (mem_range.2 h0)]
        · rw [hd i0 h0, if_pos rfl, one_mul]
        · intro i hi hne
          rw [hd i (mem_range.1 hi), if_neg hne, zero_mul]
      rw [this r, this fun i => r i ^ 2]
  unfold sigma
  rw [hW, hA, hB, ← hXY]
  ring

theorem verifyInit_good {vk ctx : Bytes} {j level : ℕ} (hj : j < 2) {prefixes : List (List Bool)} {nonce : Bytes}
    {pub : List CorrectionWord} {s : Poplar1InputShare} {corr : Fk (P.idpf.currentField level) × _ × _}
    {A B : Fk (P.idpf.currentField level)}
    (he : Good (fun e => e = .fuel) (P.idpf.eval prims fuel j pub s.key level prefixes ctx nonce) fun out =>
      out.length = prefixes.length ∧ ∀ y ∈ out, y.length = 2)
    (hcorr : P.corrShares prims fuel ctx j level nonce s.corrSeed = .ok [corr.1, corr.2.1, corr.2.2])
    (hab : abShares level s.corrInner s.corrLeaf _ = [A, B])
    (hr : Good (fun e => e = .fuel) (P.verifyRand prims fuel vk ctx nonce level prefixes.length) fun r =>
      r.length = prefixes.length) :
    Good (fun e => e = .fuel) (P.verifyInit prims fuel vk ctx j (level, prefixes) nonce pub s) fun res =>
      ∃ value r, InitRun P prims fuel vk ctx j level prefixes nonce pub s value corr A B r ∧
        value.length = prefixes.length ∧ r.length = prefixes.length ∧
        res = (⟨.evaluate, level, ⟨_, [A, B, (j : Fk (P.idpf.currentField level))] ++
          tab r.length fun i => ent value i 0⟩⟩,
          ⟨_, [(sums corr value r).1, (sums corr value r).2.1, (sums corr value r).2.2]⟩) := by
  rcases he.cases with ⟨value, e1, l1, l2⟩ | ⟨e, e1, rfl⟩
  · rcases hr.cases with ⟨r, e2, l3⟩ | ⟨e, e2, rfl⟩
    · have R : InitRun P prims fuel vk ctx j level prefixes nonce pub s value corr A B r := by
        refine ⟨e1, hcorr, hab, e2, fun i hi => ?_⟩
        have hi' : i < value.length := by omega
        exact ⟨value[i], List.getElem?_eq_getElem hi', (l2 _ (List.getElem_mem hi')).ge⟩
      rw [(verifyInit_iff (level := level) hj).2 ⟨value, corr, A, B, r, R, rfl, rfl⟩]
      exact Good.ok ⟨value, r, R, l1, l3, rfl⟩
    · have : P.verifyInit prims fuel vk ctx j (level, prefixes) nonce pub s = .error .fuel := by
        unfold verifyInit
        dsimp only
        rw [e1]
        simp only [Except.ok_bind']
        rw [hcorr]
        simp only [Except.ok_bind']
        rw [hab]
        dsimp only
        rw [e2]
        rfl
      rw [this]
      exact Good.error rfl
  · have : P.verifyInit prims fuel vk ctx j (level, prefixes) nonce pub s = .error .fuel := by
      unfold verifyInit
      dsimp only
      rw [e1]
      rfl
    rw [this]
    exact Good.error rfl

/-- The result of verification for an honest report -/
theorem runVerify_good (hf : fuel < 2 ^ 120) (hb : 0 < P.idpf.bits) (hv : P.idpf.valueLen = 2) {ctx : Bytes}
    (hc : Idpf.CtxOk ctx) {alpha : List Bool} (ha : alpha.length = P.idpf.bits) {nonce rand vk : Bytes}
    (hn : nonce.length = 16) (hr : rand.length = 128) (hvk : vk.length = 32) {level : ℕ}
    (hl : level < P.idpf.bits) (hl16 : level < 2 ^ 16) {prefixes : List (List Bool)} (hnd : prefixes.Nodup)
    (hpl : ∀ p ∈ prefixes, p.length = level + 1) :
    Good (fun e => e = .fuel) ((P.vdaf prims fuel).runVerify vk (level, prefixes) ctx alpha nonce rand) fun r =>
      ∃ u0 u1 : List (Fk (P.idpf.currentField level)),
        r = ([⟨.reveal, level, ⟨_, u0⟩⟩, ⟨.reveal, level, ⟨_, u1⟩⟩], none) ∧ u0.length = prefixes.length ∧
        u1.length = prefixes.length ∧ ∀ i (hi : i < prefixes.length),
          coef u0 i + coef u1 i = if prefixes[i] = alpha.take (level + 1) then 1 else 0 := by
  unfold VdafImpl.runVerify
  refine Good.bind (shard_good (prims := prims) hf hb hv hc ha hn hr) ?_
  rintro ⟨pub, ish⟩ - ⟨s0, s1, beta, hish, H⟩
  dsimp only at hish H ⊢
  subst hish
  obtain ⟨N, hN⟩ := H.gen
  obtain ⟨g0, g1, hsum⟩ := hN.eval_good hf hc H.key0 H.key1 hl hnd hpl
  obtain ⟨o0, o1, q0, q1, lo0, lo1, a, b, c, A0, B0, A1, B1, hoff, hab0, hab1, hA, hB⟩ := H.corr level hl
  obtain ⟨a0, b0, c0, rfl⟩ := list_three lo0
  obtain ⟨a1, b1, c1, rfl⟩ := list_three lo1
  simp only [List.zipWith_cons_cons, List.zipWith_nil_left, List.cons.injEq, and_true] at hoff
  obtain ⟨rfl, rfl, rfl⟩ := hoff
  have hvr := verifyRand_good (P := P) (prims := prims) (fuel := fuel) (nonce := nonce) hvk hc hl16 prefixes.length
  rw [hv] at g0 g1
  have i0 := verifyInit_good (P := P) (prims := prims) (fuel := fuel) (j := 0) (by decide) g0
    (corr := (a0, b0, c0)) q0 hab0 hvr
  have i1 := verifyInit_good (P := P) (prims := prims) (fuel := fuel) (j := 1) (by decide) g1
    (corr := (a1, b1, c1)) q1 hab1 hvr
  have hmap : mapRes (fun j => do
        let inputShare ← getI [s0, s1] j
        (P.vdaf prims fuel).verifyInit vk ctx j (level, prefixes) nonce pub inputShare)
      (List.range (P.vdaf prims fuel).shares) = (do
        let r0 ← P.verifyInit prims fuel vk ctx 0 (level, prefixes) nonce pub s0
        let r1 ← P.verifyInit prims fuel vk ctx 1 (level, prefixes) nonce pub s1
        .ok [r0, r1]) := by
    rw [show List.range (P.vdaf prims fuel).shares = [0, 1] from rfl, mapRes_cons]
    rw [show getI [s0, s1] 0 = .ok s0 from rfl]
    simp only [Except.ok_bind', mapRes_cons, mapRes_nil]
    rw [show getI [s0, s1] 1 = .ok s1 from rfl]
    simp only [Except.ok_bind', Except.pure_eq', bind_assoc]
    rfl
  rw [hmap]
  refine Good.bind (Q := fun outs => ∃ v0 v1 r,
    InitRun P prims fuel vk ctx 0 level prefixes nonce pub s0 v0 (a0, b0, c0) A0 B0 r ∧
    InitRun P prims fuel vk ctx 1 level prefixes nonce pub s1 v1 (a1, b1, c1) A1 B1 r ∧
    v0.length = prefixes.length ∧ v1.length = prefixes.length ∧ r.length = prefixes.length ∧
    outs = [(⟨.evaluate, level, ⟨_, [A0, B0, ((0 : ℕ) : Fk (P.idpf.currentField level))] ++
          tab r.length fun i => ent v0 i 0⟩⟩,
          ⟨_, [(sums (a0, b0, c0) v0 r).1, (sums (a0, b0, c0) v0 r).2.1, (sums (a0, b0, c0) v0 r).2.2]⟩),
      (⟨.evaluate, level, ⟨_, [A1, B1, ((1 : ℕ) : Fk (P.idpf.currentField level))] ++
          tab r.length fun i => ent v1 i 0⟩⟩,
          ⟨_, [(sums (a1, b1, c1) v1 r).1, (sums (a1, b1, c1) v1 r).2.1, (sums (a1, b1, c1) v1 r).2.2]⟩)]) ?_ ?_
  · refine i0.bind ?_
    rintro r0 - ⟨v0, r, R0, l0, lr, rfl⟩
    refine i1.bind ?_
    rintro r1 - ⟨v1, r', R1, l1, lr', rfl⟩
    have := R0.rand.symm.trans R1.rand
    cases this
    exact Good.ok ⟨v0, v1, r, R0, R1, l0, l1, lr, rfl⟩
  rintro outs - ⟨v0, v1, r, R0, R1, l0, l1, lr, rfl⟩
  have htot : ∀ i (hi : i < prefixes.length), ∀ t < 2,
      tot v0 v1 i t = if prefixes[i] = alpha.take (level + 1) then coef (beta level) t else 0 := by
    intro i hi t ht
    have := hsum v0 v1 R0.eval R1.eval i hi (by omega) (by omega) t (by omega)
    unfold tot ent
    rw [List.getD_eq_getElem?_getD, List.getD_eq_getElem?_getD, List.getElem?_eq_getElem (by omega),
      List.getElem?_eq_getElem (by omega)]
    exact this
  have hsig : sigma r.length (fun i => tot v0 v1 i 0) (fun i => tot v0 v1 i 1) (fun i => coef r i)
        (a0 + a1) (b0 + b1) (c0 + c1) (A0 + A1) (B0 + B1) = 0 := by
    refine sigma_honest (k := coef (beta level) 1) ?_ ?_ hA hB
    · rw [lr]
      by_cases hm : alpha.take (level + 1) ∈ prefixes
      · right
        obtain ⟨i0, hi0, hm⟩ := List.mem_iff_getElem.1 hm
        refine ⟨i0, hi0, fun i hi => ?_⟩
        rw [htot i hi 0 (by decide), H.one level hl, ← hm]
        by_cases hii : i = i0
        · subst hii; simp
        · rw [if_neg hii, if_neg]
          intro heq
          exact hii ((List.Nodup.getElem_inj_iff hnd).1 heq)
      · left
        intro i hi
        rw [htot i hi 0 (by decide), if_neg]
        intro h
        exact hm (h ▸ List.getElem_mem hi)
    · intro i hi
      rw [htot i (by omega) 0 (by decide), htot i (by omega) 1 (by decide), H.one level hl]
      split <;> simp
  simp only [List.map_cons, List.map_nil]
  rw [show (P.vdaf prims fuel).rounds - 1 = 1 from rfl, show List.range 1 = [0] from rfl, forFold_cons]
  unfold VdafImpl.runRound
  simp only [forFold_nil]
  have hm1 : (P.vdaf prims fuel).sharesToMessage = sharesToMessage := rfl
  rw [hm1]
  rw [message_three]
  simp only [Except.ok_bind']
  have hsh : List.range (P.vdaf prims fuel).shares = [0, 1] := rfl
  rw [hsh]
  simp only [mapRes_cons, mapRes_nil]
  rw [show ∀ x y : Poplar1VerifyState, getI [x, y] 0 = .ok x from fun _ _ => rfl]
  simp only [Except.ok_bind']
  rw [show ∀ x y : Poplar1VerifyState, getI [x, y] 1 = .ok y from fun _ _ => rfl]
  simp only [Except.ok_bind']
  unfold VdafImpl.verifyNextTuple
  rw [show (P.vdaf prims fuel).verifyNext = verifyNext from rfl, next_evaluate, next_evaluate]
  simp only [Except.ok_bind', Except.pure_eq', List.map_cons, List.map_nil]
  rw [message_one, if_pos]
  · simp only [Except.ok_bind']
    refine Good.ok ⟨_, _, rfl, by simp [lr], by simp [lr], fun i hi => ?_⟩
    rw [coef_tab, coef_tab, if_pos (by omega), if_pos (by omega)]
    have := htot i hi 0 (by decide)
    rw [H.one level hl] at this
    exact this
  · rw [← hsig]
    exact sigma_eq v0 v1 r a0 b0 c0 a1 b1 c1 A0 B0 A1 B1

theorem vecAddF_tab {κ : Kind} {n : ℕ} {u v : List (Fk κ)} (hu : u.length = n) (hv : v.length = n) :
    vecAddF ⟨κ, u⟩ ⟨κ, v⟩ = .ok ⟨κ, tab n fun i => coef u i + coef v i⟩ := by
  unfold vecAddF
  dsimp only
  rw [castVec_self]
  conv_lhs => rw [eq_tab hu, eq_tab hv]
  rw [vecAdd_tab]
  rfl

theorem runReport_good (hf : fuel < 2 ^ 120) (hb : 0 < P.idpf.bits) (hv : P.idpf.valueLen = 2) {ctx : Bytes}
    (hc : Idpf.CtxOk ctx) {alpha : List Bool} (ha : alpha.length = P.idpf.bits) {nonce rand vk : Bytes}
    (hn : nonce.length = 16) (hr : rand.length = 128) (hvk : vk.length = 32) {level : ℕ}
    (hl : level < P.idpf.bits) (hl16 : level < 2 ^ 16) {prefixes : List (List Bool)} (hnd : prefixes.Nodup)
    (hpl : ∀ p ∈ prefixes, p.length = level + 1) {A0 A1 : List (Fk (P.idpf.currentField level))}
    (h0 : A0.length = prefixes.length) (h1 : A1.length = prefixes.length) :
    Good (fun e => e = .fuel) ((P.vdaf prims fuel).runReport vk (level, prefixes) ctx [⟨_, A0⟩, ⟨_, A1⟩] alpha nonce rand)
      fun r => ∃ A0' A1' : List (Fk (P.idpf.currentField level)),
        r = [⟨_, A0'⟩, ⟨_, A1'⟩] ∧ A0'.length = prefixes.length ∧ A1'.length = prefixes.length ∧
        ∀ i (hi : i < prefixes.length), coef A0' i + coef A1' i =
          coef A0 i + coef A1 i + if prefixes[i] = alpha.take (level + 1) then 1 else 0 := by
  unfold VdafImpl.runReport
  refine Good.bind (runVerify_good (prims := prims) hf hb hv hc ha hn hr hvk hl hl16 hnd hpl) ?_
  rintro _ - ⟨u0, u1, rfl, lu0, lu1, hu⟩
  dsimp only
  rw [show List.range (P.vdaf prims fuel).shares = [0, 1] from rfl]
  simp only [forFold_cons, forFold_nil]
  rw [show ∀ x y : Poplar1VerifyState, getI [x, y] 0 = .ok x from fun _ _ => rfl,
    show ∀ x y : Poplar1VerifyState, getI [x, y] 1 = .ok y from fun _ _ => rfl]
  simp only [Except.ok_bind']
  have hout : ∀ m, (P.vdaf prims fuel).verifyNextOut ctx ⟨.reveal, level, m⟩ none = .ok m := fun _ => rfl
  rw [hout, hout]
  simp only [Except.ok_bind']
  rw [show ∀ x y : FieldVec, getI [x, y] 0 = .ok x from fun _ _ => rfl]
  simp only [Except.ok_bind']
  rw [show (P.vdaf prims fuel).aggUpdate (level, prefixes) = vecAddF from rfl, vecAddF_tab h0 lu0]
  simp only [Except.ok_bind']
  rw [show ∀ x y z : FieldVec, setI [x, y] 0 z = .ok [z, y] from fun _ _ _ => rfl]
  simp only [Except.ok_bind']
  rw [show ∀ x y : FieldVec, getI [x, y] 1 = .ok y from fun _ _ => rfl]
  simp only [Except.ok_bind']
  rw [vecAddF_tab h1 lu1]
  simp only [Except.ok_bind']
  rw [show ∀ x y z : FieldVec, setI [x, y] 1 z = .ok [x, z] from fun _ _ _ => rfl]
  simp only [Except.ok_bind']
  refine Good.ok ⟨_, _, rfl, by simp, by simp, fun i hi => ?_⟩
  rw [coef_tab, coef_tab, if_pos hi, if_pos hi, ← hu i hi]
  ring

theorem isPrefixOf_iff {p m : List Bool} {level : ℕ} (hp : p.length = level + 1) :
    p.isPrefixOf m = true ↔ p = m.take (level + 1) := by
  rw [List.isPrefixOf_iff_prefix, ← hp]
  exact List.prefix_iff_eq_take

theorem runVdaf_good (hf : fuel < 2 ^ 120) (hb : 0 < P.idpf.bits) (hv : P.idpf.valueLen = 2) {ctx : Bytes}
    (hc : Idpf.CtxOk ctx) {vk : Bytes} (hvk : vk.length = 32) {level : ℕ}
    (hl : level < P.idpf.bits) (hl16 : level < 2 ^ 16) {prefixes : List (List Bool)} (hnd : prefixes.Nodup)
    (hpl : ∀ p ∈ prefixes, p.length = level + 1) {ms : List (List Bool × Bytes × Bytes)}
    (hms : ∀ m ∈ ms, m.1.length = P.idpf.bits ∧ m.2.1.length = 16 ∧ m.2.2.length = 128) :
    Good (fun e => e = .fuel) (runVdaf (P.vdaf prims fuel) vk (level, prefixes) ctx ms) fun R =>
      R = prefixes.map fun p =>
        Spec.countPrefix (ms.map Prod.fst) p % PyField.modulus (Fk (P.idpf.currentField level)) := by
  unfold runVdaf
  rw [raiseIf_of_not (show ¬ (vk.length ≠ (P.vdaf prims fuel).verifyKeySize) from fun h => h hvk)]
  simp only [Except.ok_bind']
  rw [show List.range (P.vdaf prims fuel).shares = [0, 1] from rfl]
  have hinit : mapRes (fun _ => (P.vdaf prims fuel).aggInit (level, prefixes)) [0, 1] =
      .ok [⟨P.idpf.currentField level, fieldZeros _ prefixes.length⟩,
        ⟨P.idpf.currentField level, fieldZeros _ prefixes.length⟩] := rfl
  rw [hinit]
  simp only [Except.ok_bind']
  have hloop : ∀ (l : List (List Bool × Bytes × Bytes)) (A0 A1 : List (Fk (P.idpf.currentField level))),
      (∀ m ∈ l, m.1.length = P.idpf.bits ∧ m.2.1.length = 16 ∧ m.2.2.length = 128) →
      A0.length = prefixes.length → A1.length = prefixes.length →
      Good (fun e => e = .fuel) (forFold l [⟨P.idpf.currentField level, A0⟩, ⟨P.idpf.currentField level, A1⟩]
        fun aggShares (m, nonce, rand) =>
          (P.vdaf prims fuel).runReport vk (level, prefixes) ctx aggShares m nonce rand) fun r =>
        ∃ A0' A1' : List (Fk (P.idpf.currentField level)),
        r = [⟨_, A0'⟩, ⟨_, A1'⟩] ∧ A0'.length = prefixes.length ∧ A1'.length = prefixes.length ∧
        ∀ i (hi : i < prefixes.length), coef A0' i + coef A1' i =
          coef A0 i + coef A1 i + (Spec.countPrefix (l.map Prod.fst) prefixes[i] : ℕ) := by
    intro l
    induction l with
    | nil =>
      intro A0 A1 _ h0 h1
      exact Good.ok ⟨A0, A1, rfl, h0, h1, fun i hi => by simp [Spec.countPrefix]⟩
    | cons m l ih =>
      intro A0 A1 hms h0 h1
      obtain ⟨m, nonce, rand⟩ := m
      obtain ⟨hm, hn, hr⟩ := hms (m, nonce, rand) (by simp)
      dsimp only at hm hn hr
      rw [forFold_cons]
      refine Good.bind (runReport_good (prims := prims) hf hb hv hc hm hn hr hvk hl hl16 hnd hpl h0 h1) ?_
      rintro _ - ⟨A0', A1', rfl, l0, l1, hA⟩
      refine (ih A0' A1' (fun m hm => hms m (by simp [hm])) l0 l1).mono ?_
      rintro _ - ⟨A0'', A1'', rfl, l0', l1', hA'⟩
      refine ⟨A0'', A1'', rfl, l0', l1', fun i hi => ?_⟩
      rw [hA' i hi, hA i hi]
      unfold Spec.countPrefix
      simp only [List.map_cons, List.filter_cons]
      by_cases hp : prefixes[i].isPrefixOf m = true
      · rw [if_pos hp, if_pos ((isPrefixOf_iff (hpl _ (List.getElem_mem hi))).1 hp)]
        simp only [List.length_cons]
        push_cast
        ring
      · rw [if_neg hp, if_neg fun h => hp ((isPrefixOf_iff (hpl _ (List.getElem_mem hi))).2 h)]
        ring
  refine (hloop ms _ _ hms (by simp [fieldZeros]) (by simp [fieldZeros])).bind ?_
  rintro _ - ⟨A0, A1, rfl, l0, l1, hA⟩
  show Good _ (P.unshard (level, prefixes) _ ms.length) _
  unfold unshard
  rw [merge_eq]
  rw [if_pos (by
    intro v hv
    simp only [List.mem_cons, List.not_mem_nil, or_false] at hv
    rcases hv with rfl | rfl
    · exact l0
    · exact l1)]
  simp only [Except.ok_bind']
  refine Good.pure ?_
  refine List.ext_getElem (by simp) fun i hi hi' => ?_
  have hi2 : i < prefixes.length := by simpa using hi'
  simp only [List.getElem_map, tab_getElem, List.map_cons, List.map_nil, castVec_self, colsum, List.sum_cons,
    List.sum_nil, add_zero]
  rw [hA i hi2]
  have hz : coef (fieldZeros (Fk (P.idpf.currentField level)) prefixes.length) i = 0 := by
    rw [coef_of_lt (by simpa [fieldZeros] using hi2)]
    simp [fieldZeros]
  rw [hz, zero_add, zero_add, toNat_natCast_mod]

end Poplar1
end Vdaf
