import Verif.Proofs.Prio3Inst

/-! Whoever knows the query randomness can have any vector accepted. -/

namespace Vdaf
open Finset Polynomial

section
variable {F : Type} [NttField F] {Meas Agg : Type} {V : Valid F Meas Agg}

namespace Valid

/-- A polynomial with prescribed values at the calls and at the test point -/
theorem Lawful.forge_poly (h : V.Lawful) {g : ℕ} (hg : g < V.num) {t : F} (ht : t ^ 2 ^ V.L g ≠ 1) (a : ℕ → F) (y : F) :
    ∃ Q : F[X], Q.degree < ((V.m g : ℕ) : WithBot ℕ) ∧ Q.eval t = y ∧
      ∀ k < V.calls g, Q.eval (nthRoot F (V.L g) ^ (k + 1)) = a k := by
  have hL := h.L_le hg
  have hc := V.calls_lt g
  let node : ℕ → F := fun i => if i = 0 then t else nthRoot F (V.L g) ^ i
  have hne : ∀ i, nthRoot F (V.L g) ^ i ≠ t := by
    intro i hi
    apply ht
    rw [← hi, ← pow_mul, mul_comm, pow_mul, nthRoot_pow_eq_one hL, one_pow]
  have hinj : Set.InjOn node (range (V.calls g + 1) : Finset ℕ) := by
    intro i hi j hj hij
    simp only [coe_range, Set.mem_Iio] at hi hj
    simp only [node] at hij
    by_cases hi0 : i = 0 <;> by_cases hj0 : j = 0
    · omega
    · rw [if_pos hi0, if_neg hj0] at hij; exact absurd hij.symm (hne j)
    · rw [if_neg hi0, if_pos hj0] at hij; exact absurd hij (hne i)
    · rw [if_neg hi0, if_neg hj0] at hij
      exact root_inj hL i (by omega) j (by omega) hij
  refine ⟨Lagrange.interpolate (range (V.calls g + 1)) node fun i => if i = 0 then y else a (i - 1), ?_, ?_, ?_⟩
  · have := Lagrange.degree_interpolate_lt (r := fun i => if i = 0 then y else a (i - 1)) hinj
    rw [card_range] at this
    refine lt_of_lt_of_le this ?_
    have hd := h.deg_pos g hg
    have : V.calls g + 1 ≤ V.m g := by
      unfold m gadgetPolyLen
      have := Nat.mul_le_mul_right (2 ^ V.L g - 1) hd
      omega
    exact_mod_cast this
  · have := Lagrange.eval_interpolate_at_node (fun i => if i = 0 then y else a (i - 1)) hinj
      (i := 0) (by simp)
    simpa [node] using this
  · intro k hk
    have := Lagrange.eval_interpolate_at_node (fun i => if i = 0 then y else a (i - 1)) hinj
      (i := k + 1) (by simpa using hk)
    simpa [node] using this

/-- If the circuit is satisfied with some answers of the gadgets, the proof can be chosen such that it is accepted. -/
theorem Lawful.forge (h : V.Lawful) {meas jr qr out : List F} (hmeas : meas.length = V.measLen)
    (hjr : jr.length = V.jointRandLen) (hqr : qr.length = V.queryRandLen) (hgood : ¬ Spec.BadTestPoint V qr)
    {ans : ℕ → ℕ → F} (hv : (V.eval meas jr 1).Val (fun g k _ => ans g k) out)
    (hred : reduceOut V.evalOutputLen out qr = 0) :
    ∃ π v, V.proofLen = .ok π.length ∧ V.query meas π qr jr 1 = .ok v ∧ V.decide v = .ok true := by
  obtain ⟨log, hlog⟩ := hv fun _ => []
  obtain ⟨out', log', htr, -, hlen, -, hmem⟩ := Prog.trace_wf (fun g k _ => ans g k)
    (h.wf meas jr 1 hmeas hjr le_rfl (one_lt_modulus F)) (fun _ => [])
  rw [hlog] at htr
  obtain ⟨rfl, rfl⟩ : out = out' ∧ log = log' := by simpa using htr
  rw [h.badTestPoint_iff hqr] at hgood
  push Not at hgood
  obtain ⟨t, htd⟩ : ∃ t : ℕ → F, t = fun g => coef qr (toff V.evalOutputLen + g) := ⟨_, rfl⟩
  have hQ : ∀ g, ∃ Q : F[X], g < V.num → Q.degree < ((V.m g : ℕ) : WithBot ℕ) ∧
      Q.eval (t g) = (V.gad g).val (tab (V.ar g) fun j => (wireP (V.L g) (wval (fun _ => 0) (log g) j)).eval (t g)) ∧
      ∀ k < V.calls g, Q.eval (nthRoot F (V.L g) ^ (k + 1)) = ans g k := by
    intro g
    by_cases hg : g < V.num
    · obtain ⟨Q, h1, h2, h3⟩ := h.forge_poly hg (t := t g) (by rw [htd]; exact hgood g hg) (ans g)
        ((V.gad g).val (tab (V.ar g) fun j => (wireP (V.L g) (wval (fun _ => 0) (log g) j)).eval (t g)))
      exact ⟨Q, fun _ => ⟨h1, h2, h3⟩⟩
    · exact ⟨0, fun hg' => absurd hg' hg⟩
  choose Q hQ using hQ
  obtain ⟨blk, hbd⟩ : ∃ blk : ℕ → List F, blk = fun g =>
    List.replicate (V.ar g) 0 ++ tab (V.m g) fun i => (Q g).eval (nthRoot F (V.M g) ^ i) := ⟨_, rfl⟩
  have hblk : ∀ g < V.num, (blk g).length = V.ar g + V.m g := fun g _ => by simp [hbd]
  obtain ⟨π, hπ⟩ : ∃ π, π = (List.range V.num).flatMap blk := ⟨_, rfl⟩
  have hπl : π.length = V.off V.num := by rw [hπ]; exact length_flatMap_range _ _ _ hblk
  have hsd : ∀ g < V.num, ∀ j < V.ar g, V.sdq π g j = 0 := by
    intro g hg j hj
    unfold sdq off
    rw [hπ, coef_flatMap _ _ _ hblk g j hg (by omega)]
    rw [hbd]
    dsimp only
    rw [coef_append, if_pos (by simpa using hj), coef_of_lt (by simpa using hj)]
    simp
  have hP : ∀ g < V.num, V.Pq π g = Q g := by
    intro g hg
    refine gadP_unique (h.cap g hg) (V.m_le g) _ _ (hQ g hg).1 fun i hi => ?_
    unfold gvq off
    rw [add_assoc, hπ, coef_flatMap _ _ _ hblk g _ hg (by omega)]
    rw [hbd]
    dsimp only
    rw [coef_append, if_neg (by simp), List.length_replicate, Nat.add_sub_cancel_left, coef_tab, if_pos hi]
  have htr' := Prog.trace_congr (ans' := fun g k _ => V.ansq π g k)
    (h.wf meas jr 1 hmeas hjr le_rfl (one_lt_modulus F)) hlog (by
      intro g k inp hg hk
      have hk' : k < V.calls g := by
        have := (List.getElem?_eq_some_iff.1 hk).1
        rw [hlen g] at this
        simpa [hg] using this
      show ans g k = V.ansq π g k
      unfold ansq
      rw [hP g hg, (hQ g hg).2.2 k hk'])
  obtain ⟨out', log', h1, -, -, -, h2⟩ := h.query_eq hmeas hπl hqr hjr le_rfl (one_lt_modulus F)
  rw [htr'] at h1
  obtain ⟨rfl, rfl⟩ : out = out' ∧ log = log' := by simpa using h1
  rw [if_neg (by push Not; exact hgood), hred] at h2
  refine ⟨π, _, h.proofLen_iff.2 hπl, h2, ?_⟩
  rw [← htd]
  have hpart : ∀ g < V.num, V.vpart π log t g =
      tab (V.ar g) (fun j => (wireP (V.L g) (wval (V.sdq π g) (log g) j)).eval (t g)) ++ [(Q g).eval (t g)] := by
    intro g hg
    unfold vpart
    rw [hP g hg]
  have hb := h.decide_blocks 0 (fun g j => (wireP (V.L g) (wval (V.sdq π g) (log g) j)).eval (t g))
    (fun g => (Q g).eval (t g))
  have hfm := List.flatMap_congr (l := List.range V.num) fun g hg => hpart g (List.mem_range.1 hg)
  refine (congrArg (fun l => V.decide (0 :: l)) hfm).trans (hb.trans (congrArg _ (decide_eq_true ⟨rfl, fun g hg => ?_⟩)))
  rw [(hQ g hg).2.1]
  refine congrArg _ (tab_congr fun j hj => ?_)
  refine congrArg (fun v => (wireP (V.L g) v).eval (t g)) (funext fun i => ?_)
  unfold wval
  rw [hsd g hg j hj]

end Valid

/-! ### the circuits of the library -/

theorem val_const_chunk (meas jr : List F) (cl calls : ℕ) (hjr : jr.length = calls) (y : F) :
    (chunkLoop meas jr 1 cl calls).Val (fun _ _ _ => y) ((calls : F) * y) := by
  rw [chunkLoop_eq _ _ _ _ _ hjr]
  have := Prog.Val.forFold (ans := fun _ _ _ => y) (List.range calls)
    (fun rc i => (if i < calls then
        Prog.call 0 (tab (2 * cl) (chunkInp meas 1 (coef jr i) cl i)) fun y => .pure (rc + y)
      else .raise .index))
    (fun n => (n : F) * y) (by
      intro i hi log
      simp only [List.length_range] at hi
      rw [List.getElem_range, if_pos hi]
      refine ⟨Function.update log 0 (log 0 ++ [tab (2 * cl) (chunkInp meas 1 (coef jr i) cl i)]), ?_⟩
      simp only [Prog.trace]
      push_cast
      rw [add_mul, one_mul])
  simpa using this

theorem reduceOut_two (a b : F) (qr : List F) :
    Valid.reduceOut 2 [a, b] qr = coef qr 0 * a + coef qr 1 * b := by
  simp [Valid.reduceOut, sum_range_succ, coef]

theorem calls_ne_zero {c : ℕ} (h1 : 1 ≤ c) (h : Nat.size c + 1 ≤ NttField.logOrder F) : (c : F) ≠ 0 := by
  intro h0
  have h2 := two_pow_lt_modulus (F := F) (k := Nat.size c) (by omega)
  have h3 := Nat.lt_size_self c
  have := natCast_inj_of_lt (F := F) (a := c) (b := 0) (by omega) (by omega) (by simpa using h0)
  omega

/-- For the circuits of the library and any vector, there is an answer of the gadgets which makes the reduced output
vanish. -/
theorem Library.answer {fn : Spec.Fun Meas Agg} (hV : Spec.Library F V fn) (hfit : Spec.Fits V) {meas jr qr : List F}
    (hmeas : meas.length = V.measLen) (hjr : jr.length = V.jointRandLen)
    (hq : 1 < V.evalOutputLen → coef qr 0 ≠ 0) :
    ∃ (y : F) (out : List F), (V.eval meas jr 1).Val (fun _ _ _ => y) out ∧
      Valid.reduceOut V.evalOutputLen out qr = 0 := by
  cases hV with
  | count =>
    refine ⟨coef meas 0, [0], ?_, by simp [Valid.reduceOut, Count, coef]⟩
    rw [Count.eval_eq 1 hmeas hjr]
    intro log
    exact ⟨_, by simp only [Prog.trace, sub_self]; rfl⟩
  | @sum max _ h0 h =>
    obtain ⟨h1, G, hG, rfl⟩ := Sum_ok h
    refine ⟨0, tab (Nat.size max) fun _ => 0, ?_, Valid.reduceOut_zero (by intro x hx; simp [tab] at hx; exact hx.2)⟩
    rw [Sum.eval_eq 1 hmeas hjr]
    have := Prog.Val.forFold (ans := fun _ _ _ => (0 : F)) (List.range (Nat.size max))
      (fun out i => .call 0 [coef meas i] fun y => .pure (out ++ [y]))
      (fun n => tab n fun _ => (0 : F)) (by
        intro i hi log
        refine ⟨Function.update log 0 (log 0 ++ [[coef meas i]]), ?_⟩
        simp only [Prog.trace, List.getElem_range]
        rw [tab_succ])
    rw [List.length_range] at this
    exact this
  | @sumVec length max cl _ h =>
    obtain ⟨h1, h2, h3, h4, rfl⟩ := SumVec_ok h
    refine ⟨0, [0], ?_, by simp [Valid.reduceOut, SumVec.circuit, coef]⟩
    rw [SumVec.eval_eq (length := length) (max := max) (one_lt_modulus F) hmeas hjr, Nat.cast_one, inv_one]
    have := val_const_chunk meas jr cl _ hjr (0 : F)
    rw [mul_zero] at this
    exact this.bind (.pure _)
  | @histogram length cl _ _ h =>
    obtain ⟨h1, h2, rfl⟩ := Histogram_ok h
    have hc : (numCalls length cl : F) ≠ 0 := calls_ne_zero (numCalls_pos h1 h2)
      (fits_chunk hfit rfl rfl (numCalls_pos h1 h2))
    have hq := hq (by simp [Histogram.circuit])
    obtain ⟨s, hs⟩ : ∃ s, s = meas.foldl (fun s b => s + b) (-(1 : F)) := ⟨_, rfl⟩
    refine ⟨-(coef qr 1 * s) / (coef qr 0 * numCalls length cl),
      [numCalls length cl * (-(coef qr 1 * s) / (coef qr 0 * numCalls length cl)), s], ?_, ?_⟩
    · rw [Histogram.eval_eq (length := length) (one_lt_modulus F) hmeas hjr, Nat.cast_one, inv_one]
      rw [hs]
      exact (val_const_chunk meas jr _ _ hjr _).bind (.pure _)
    · refine (reduceOut_two _ _ _).trans ?_
      field_simp
      ring
  | @multihot length mw cl _ h =>
    obtain ⟨h1, h2, h3, h4, h5, rfl⟩ := MultihotCountVec_ok h
    have hc : (numCalls (length + Nat.size mw) cl : F) ≠ 0 := calls_ne_zero (numCalls_pos (by omega) h2)
      (fits_chunk hfit rfl rfl (numCalls_pos (by omega) h2))
    have hq := hq (by simp [MultihotCountVec.circuit])
    obtain ⟨s, hs⟩ : ∃ s, s = (meas.take length).foldl (fun s b => s + b) 0 -
          ∑ l ∈ range (Nat.size mw), (rcw mw l : F) * coef (meas.drop length) l := ⟨_, rfl⟩
    refine ⟨-(coef qr 1 * s) / (coef qr 0 * numCalls (length + Nat.size mw) cl),
      [numCalls (length + Nat.size mw) cl * (-(coef qr 1 * s) / (coef qr 0 * numCalls (length + Nat.size mw) cl)), s], ?_, ?_⟩
    · rw [MultihotCountVec.eval_eq (length := length) h3 (by omega) (one_lt_modulus F) hmeas hjr, Nat.cast_one, inv_one]
      rw [hs]
      exact (val_const_chunk meas jr _ _ hjr _).bind (.pure _)
    · refine (reduceOut_two _ _ _).trans ?_
      field_simp
      ring

end

/-! ### Prio3 -/

namespace Prio3
variable {X : Xof} {F : Type} [NttField F] {Meas Agg : Type} {P : Prio3 X F Meas Agg}

/-- Verification succeeds if the verifier of each proof is accepted. -/
theorem succeeds (hN : 0 < P.shares) {vk ctx nonce : Bytes} {ish : ℕ → Prio3InputShare F} {ms ps os : ℕ → List F}
    {bl : ℕ → Option Bytes} {seed : Option Bytes} {jrs qrs : List F}
    (hexp : ∀ j < P.shares, P.expandInputShare ctx j (ish j) = .ok (ms j, ps j, bl j))
    (hjr : P.JointRandOf ctx nonce ms bl seed jrs) (hq : P.queryRands vk ctx nonce = .ok qrs)
    (hqrs : qrs.length = P.flp.queryRandLen * P.proofs) (hjrs : jrs.length = P.flp.jointRandLen * P.proofs)
    (hps : ∀ j < P.shares, (ps j).length = P.proofLen * P.proofs)
    (hos : ∀ j < P.shares, P.flp.truncate (ms j) = .ok (os j))
    (hone : ∀ i < P.proofs, ∃ (vs : ℕ → List F) (v : List F), (∀ j < P.shares, P.flp.query (ms j)
      (blk P.proofLen (ps j) i) (blk P.flp.queryRandLen qrs i) (blk P.flp.jointRandLen jrs i) P.shares = .ok (vs j)) ∧
        Spec.IsSum (fun j : Fin P.shares => vs j) v ∧ v.length = P.flp.verifierLen ∧ P.flp.decide v = .ok true) :
    ∃ pub st sh, Spec.VerifySucceeds P vk ctx nonce pub ish st sh seed ∧ ∀ j < P.shares, (st j).1 = os j := by
  obtain ⟨pub, part, pb, hjr, hpb, hmsg⟩ : ∃ (pub : Option (List Bytes)) (part : ℕ → Option Bytes) (pb : ℕ → Bytes),
      (∀ j < P.shares, P.verifyJointRand ctx j nonce pub (ms j) (bl j) = .ok (jrs, seed, part j)) ∧
      (0 < P.flp.jointRandLen → ∀ j < P.shares, part j = some (pb j)) ∧
      (if P.flp.jointRandLen > 0 then do
        let seed ← P.jointRandSeed ctx (tab P.shares pb)
        return some seed
      else return none) = .ok seed := by
    rcases hjr with ⟨h0, rfl, rfl⟩ | ⟨h0, b, parts, seed, rfl, hb, hs1, hs2⟩
    · refine ⟨none, fun _ => none, fun _ => [], fun j hj => ?_, fun h => by omega, ?_⟩
      · unfold verifyJointRand
        rw [if_neg (by omega)]
      · rw [if_neg (by omega)]; rfl
    · refine ⟨some (tab P.shares parts), fun j => some (parts j), parts, fun j hj => ?_, fun _ _ _ => rfl, ?_⟩
      · obtain ⟨h1, h3⟩ := hb j hj
        unfold verifyJointRand
        rw [if_pos h0, h1]
        dsimp only
        rw [h3]
        simp only [Except.ok_bind']
        rw [setI_self (tab_getElem? hj)]
        simp only [Except.ok_bind']
        rw [show tab P.shares parts = (List.range P.shares).map parts from rfl, hs1]
        simp only [Except.ok_bind']
        rw [hs2]
        rfl
      · rw [if_pos h0, show tab P.shares parts = (List.range P.shares).map parts from rfl, hs1]; rfl
  have hone' : ∀ i, ∃ (vs : ℕ → List F) (v : List F), i < P.proofs → (∀ j < P.shares, P.flp.query (ms j) (blk P.proofLen (ps j) i)
        (blk P.flp.queryRandLen qrs i) (blk P.flp.jointRandLen jrs i) P.shares = .ok (vs j)) ∧
        Spec.IsSum (fun j : Fin P.shares => vs j) v ∧ v.length = P.flp.verifierLen ∧
        P.flp.decide v = .ok true := by
    intro i
    by_cases hi : i < P.proofs
    · obtain ⟨vs, v, h⟩ := hone i hi
      exact ⟨vs, v, fun _ => h⟩
    · exact ⟨fun _ => [], [], fun h => absurd h hi⟩
  choose vs v hv using hone'
  have hvl : ∀ i < P.proofs, ∀ j < P.shares, (vs i j).length = P.flp.verifierLen := by
    intro i hi j hj
    rw [(hv i hi).2.1.1 ⟨j, hj⟩, (hv i hi).2.2.1]
  obtain ⟨w, hw⟩ : ∃ w : ℕ → List F, w = fun j => (List.range P.proofs).flatMap fun i => vs i j := ⟨_, rfl⟩
  have hwl : ∀ j < P.shares, (w j).length = P.flp.verifierLen * P.proofs := fun j hj => by
    rw [hw]; exact flatMap_range_length fun i hi => hvl i hi j hj
  refine ⟨pub, fun j => (os j, seed), fun j => (w j, part j), ⟨fun j hj => ?_, ?_, fun j hj => ?_⟩, fun _ _ => rfl⟩
  · unfold verifyInit
    rw [hexp j hj]
    simp only [Except.ok_bind']
    rw [hos j hj]
    simp only [Except.ok_bind']
    rw [hjr j hj]
    simp only [Except.ok_bind']
    rw [hq]
    simp only [Except.ok_bind']
    have hg := queryLoop_good (P := P) (E := fun _ => False) (hps j hj) hqrs hjrs rfl
      (ms := ms j) fun k hk => by
        rw [(hv k hk).1 j hj]; exact Good.ok trivial
    rcases hg.cases with ⟨r, hr, rfl, hall⟩ | ⟨e, he, h⟩
    · rw [hr]
      simp only [Except.ok_bind', hw]
      refine congrArg (fun l => Except.ok ((os j, seed), (l, part j))) (List.flatMap_congr fun i hi => ?_)
      exact okVal_eq ((hv i (by simpa using hi)).1 j hj)
    · exact h.elim
  · refine (sharesToMessage_eq hwl hpb).trans ?_
    rw [(decideLoop_ok (by simp)).2]
    · simpa using hmsg
    · intro i hi
      have h1 := isSum_blk (isSum_range hwl) P.flp.verifierLen i
      have h2 : (fun j : Fin P.shares => blk P.flp.verifierLen (w j) i) = fun j : Fin P.shares => vs i j := by
        funext j
        rw [hw]
        exact blk_flatMap (fun i hi => hvl i hi j j.2) hi
      rw [h2] at h1
      rw [IsSum.unique h1 (hv i hi).2.1 (by
        rw [← (hv i hi).2.1.1 ⟨0, by omega⟩, ← h1.1 ⟨0, by omega⟩])]
      exact (hv i hi).2.2.2
  · exact verifyNext_ok_iff.2 rfl

theorem forge {prims : Prims} {fuel : ℕ} {P : Prio3 (XofTurboShake128 prims fuel) F Meas Agg} {fn : Spec.Fun Meas Agg}
    (I : Spec.Instance P fn) {vk ctx nonce : Bytes} {qrs : List F} (hq : Spec.queryRands P vk ctx nonce = .ok qrs)
    (hgood : ∀ i < P.proofs, ¬ Spec.BadTestPoint P.flp (Spec.piece P.flp.queryRandLen qrs i) ∧
      (1 < P.flp.evalOutputLen → (Spec.piece P.flp.queryRandLen qrs i).head? ≠ some 0))
    {ms ps : ℕ → List F} {sd : ℕ → Bytes} {bl : ℕ → Option Bytes} (h0 : (ms 0).length = P.flp.measLen)
    (hh : ∀ j, 0 < j → j < P.shares → Spec.measShare P ctx j (sd j) = .ok (ms j) ∧
      Spec.proofsShare P ctx j (sd j) = .ok (ps j))
    {seed : Option Bytes} {jrs : List F} (hj : Spec.JointRandOf P ctx nonce ms bl seed jrs) :
    ∃ ps0 pub st sh, Spec.VerifySucceeds P vk ctx nonce pub
        (fun j => if j = 0 then .leader (ms 0) ps0 (bl 0) else .helper (sd j) (bl j)) st sh seed ∧
      ∀ e, Spec.IsSum (fun j : Fin P.shares => ms j) e → ∃ o, P.flp.truncate e = .ok o ∧
        Spec.IsSum (fun j : Fin P.shares => (st j).1) o := by
  have W := I.wf
  have hsh := W.shares_ge
  have hsl := W.shares_lt
  have hml : ∀ j < P.shares, (ms j).length = P.flp.measLen := by
    intro j hj
    rcases Nat.eq_zero_or_pos j with rfl | hj0
    · exact h0
    · exact expandIntoVec_length (hh j hj0 hj).1
  have hqrs : qrs.length = P.flp.queryRandLen * P.proofs := expandIntoVec_length hq
  have hjrs : jrs.length = P.flp.jointRandLen * P.proofs := by
    rcases hj with ⟨h, -, rfl⟩ | ⟨-, b, parts, s, -, -, -, h⟩
    · simp [h]
    · exact expandIntoVec_length h
  -- the sum of the shares
  have hsum := isSum_range hml
  obtain ⟨meas, hmeas⟩ : ∃ m, m = tab P.flp.measLen fun k => ∑ j ∈ range P.shares, coef (ms j) k := ⟨_, rfl⟩
  rw [← hmeas] at hsum
  have hmeasl : meas.length = P.flp.measLen := by rw [hmeas]; simp
  -- the proofs
  have hπ : ∀ i, ∃ π v, i < P.proofs → P.flp.proofLen = .ok (List.length π) ∧
      P.flp.query meas π (blk P.flp.queryRandLen qrs i) (blk P.flp.jointRandLen jrs i) 1 = .ok v ∧
      P.flp.decide v = .ok true := by
    intro i
    by_cases hi : i < P.proofs
    · have hbl : (blk P.flp.queryRandLen qrs i).length = P.flp.queryRandLen := blk_length' hqrs hi
      obtain ⟨y, out, h1, h2⟩ := Library.answer I.library I.fits hmeasl (blk_length' hjrs hi)
        (qr := blk P.flp.queryRandLen qrs i) (by
          intro he h0
          apply (hgood i hi).2 he
          have hpos : 0 < (blk P.flp.queryRandLen qrs i).length := by
            rw [hbl, Valid.queryRandLen, if_pos he]; omega
          rw [coef_of_lt hpos] at h0
          change (blk P.flp.queryRandLen qrs i).head? = some 0
          rw [List.head?_eq_getElem?, List.getElem?_eq_getElem hpos, h0])
      obtain ⟨π, v, h3, h4, h5⟩ := W.lawful.forge hmeasl (blk_length' hjrs hi) hbl (hgood i hi).1
        (ans := fun _ _ => y) h1 h2
      exact ⟨π, v, fun _ => ⟨h3, h4, h5⟩⟩
    · exact ⟨[], [], fun h => absurd h hi⟩
  choose π v hπv using hπ
  have hπl : ∀ i < P.proofs, (π i).length = P.proofLen := by
    intro i hi
    have := (hπv i hi).1
    rw [W.proofLen] at this
    exact (Except.ok.inj this).symm
  obtain ⟨pv, hpv⟩ : ∃ l, l = (List.range P.proofs).flatMap π := ⟨_, rfl⟩
  have hpvl : pv.length = P.proofLen * P.proofs := by rw [hpv]; exact flatMap_range_length hπl
  obtain ⟨M, hM⟩ : ∃ M, P.shares = M + 1 := ⟨P.shares - 1, by omega⟩
  have hpsum := isSum_lead (v := pv) (h := fun j => ps (j + 1)) hM (by
    intro i hi
    rw [hpvl]
    exact expandIntoVec_length (hh (i + 1) (by omega) (by omega)).2)
  obtain ⟨ps0, hps0⟩ : ∃ l, l = lead pv (fun j => ps (j + 1)) M := ⟨_, rfl⟩
  rw [← hps0] at hpsum
  obtain ⟨qs, hqs⟩ : ∃ q : ℕ → List F, q = consFn ps0 fun j => ps (j + 1) := ⟨_, rfl⟩
  rw [← hqs] at hpsum
  obtain ⟨os, o, ho1, ho2, ho3, -⟩ := (Library.encFacts I.library).trunc _ _ hsum hmeasl
  obtain ⟨pub, st, sh, h1, h2⟩ := succeeds (P := P) (by omega) (vk := vk) (nonce := nonce)
    (ish := fun j => if j = 0 then .leader (ms 0) ps0 (bl 0) else .helper (sd j) (bl j))
    (ms := ms) (ps := qs) (os := fun j => if h : j < P.shares then os ⟨j, h⟩ else []) (bl := bl)
    (fun j hj => expandInputShare_of W.id W.proofs (by omega) (by
      cases j with
      | zero => exact .inl ⟨rfl, by simp [hqs, consFn]⟩
      | succ j => exact .inr ⟨by omega, sd (j + 1), by simp, by
          rw [hqs]; exact hh (j + 1) (by omega) hj⟩))
    (jointRandOf_of W.id W.proofs (by omega) hj) (queryRands_ok.2 ⟨W.id, W.proofs, hq⟩) hqrs hjrs
    (fun j hj => (hpsum.1 ⟨j, hj⟩).trans hpvl)
    (fun j hj => by simp only [dif_pos hj]; exact ho2 ⟨j, hj⟩)
    (fun i hi => by
      have hs : Spec.IsSum (fun j : Fin P.shares => blk P.proofLen (qs j) i) (π i) := by
        have := isSum_blk hpsum P.proofLen i
        rwa [hpv, blk_flatMap hπl hi] at this
      rcases W.lawful.query_sum (by omega) W.modulus hsum hs hmeasl (W.lawful.proofLen_iff.1 (hπv i hi).1)
        (blk_length' hqrs hi) (blk_length' hjrs hi) with ⟨hb, -⟩ | ⟨v', vs, e1, e2, e3⟩
      · rw [(hπv i hi).2.1] at hb; cases hb
      · rw [(hπv i hi).2.1] at e1
        obtain rfl := Except.ok.inj e1
        refine ⟨fun j => if h : j < P.shares then vs ⟨j, h⟩ else [], v i, fun j hj => ?_, ?_, ?_, (hπv i hi).2.2⟩
        · simp only [dif_pos hj]; exact e2 ⟨j, hj⟩
        · have : (fun j : Fin P.shares => if h : (j : ℕ) < P.shares then vs ⟨j, h⟩ else []) = vs := by
            funext j; simp
          rw [this]; exact e3
        · rcases W.lawful.query_total hmeasl (hπv i hi).1 (blk_length' hqrs hi) (blk_length' hjrs hi) le_rfl
            (one_lt_modulus F) with hb | ⟨-, v', hv', hl⟩
          · rw [(hπv i hi).2.1] at hb; cases hb.2
          · rw [(hπv i hi).2.1] at hv'
            rw [Except.ok.inj hv']; exact hl)
  refine ⟨ps0, pub, st, sh, h1, fun e he => ?_⟩
  have hel : e.length = meas.length := by rw [← he.1 ⟨0, by omega⟩, ← hsum.1 ⟨0, by omega⟩]
  rw [IsSum.unique he hsum hel]
  refine ⟨o, ho1, ?_⟩
  have : (fun j : Fin P.shares => (st j).1) = os := by
    funext j
    rw [h2 j j.2, dif_pos j.2]
  rw [this]; exact ho3

end Prio3
end Vdaf
