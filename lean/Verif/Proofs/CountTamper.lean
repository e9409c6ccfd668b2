import Verif.Proofs.Prio3Sound
import Verif.Proofs.Prio3Inst

/-! A proof made for one measurement of `Count` never verifies for another one. -/

set_option linter.unusedSectionVars false

namespace Vdaf
open Finset

section
variable {F : Type} [NttField F]

theorem Count.other_rejected (hfit : Spec.Fits (Count F)) {x0 x : F} (h0 : x0 * x0 = x0) (hx : x ≠ x0)
    {pr qr π v : List F} (hpr : pr.length = (Count F).proveRandLen) (hqr : qr.length = (Count F).queryRandLen)
    (hp : (Count F).prove [x0] pr [] = .ok π) (hq : (Count F).query [x] π qr [] 1 = .ok v) :
    (Count F).decide v = .ok false := by
  have L := Count.lawful hfit
  have hnum : (0 : ℕ) < (Count F).num := Nat.one_pos
  obtain ⟨out, log, π', htr, -, hlen, hmem, hp', hπ, hg⟩ :=
    L.prove_eq (meas := [x0]) (jr := []) rfl hpr rfl
  rw [hp] at hp'
  cases hp'
  rw [Count.eval_eq 1 rfl rfl] at htr
  simp only [Prog.trace] at htr
  obtain ⟨-, hlog⟩ := Prod.mk.inj (Except.ok.inj htr)
  have hk : (log 0)[0]? = some [coef [x0] 0, coef [x0] 0] := by rw [← hlog]; simp
  have hans := L.ans_eq hnum (hlen 0 hnum) (hmem 0) (hg 0 hnum).2 hk
  have hval : (Valid.gad (Count F) 0).val [coef [x0] 0, coef [x0] 0] = coef [x0] 0 * coef [x0] 0 :=
    val_of_eval (mul_eval _ _)
  rw [hval] at hans
  obtain ⟨out', log', htr', -, -, -, hq'⟩ :=
    L.query_eq (meas := [x]) (jr := []) (N := 1) rfl hπ hqr rfl le_rfl (one_lt_modulus F)
  rw [hq] at hq'
  split at hq'
  · cases hq'
  · rw [Count.eval_eq 1 rfl rfl] at htr'
    simp only [Prog.trace] at htr'
    obtain ⟨hout, -⟩ := Prod.mk.inj (Except.ok.inj htr')
    cases hq'
    unfold Valid.vpart
    rw [L.decide_blocks]
    congr 1
    rw [decide_eq_false_iff_not]
    rintro ⟨hz, -⟩
    have e1 : (Count F).evalOutputLen = 1 := rfl
    rw [e1, Valid.reduceOut, if_neg (by omega), ← hout] at hz
    simp only [coef, List.getD_cons_zero, List.length_nil] at hz hans
    rw [← hans, h0, sub_eq_zero] at hz
    exact hx hz.symm
end

/-- A report of `Prio3Count` in which only the leader's measurement share was changed is not accepted. -/
theorem Prio3.count_changed {X : Xof} {F : Type} [NttField F] {P : Prio3 X F Int Nat} (W : P.WF)
    (hV : P.flp = Count F) (hfit : Spec.Fits (Count F)) (hpr : 0 < P.proofs) {ctx nonce : Bytes} {x0 : F}
    (h0 : x0 * x0 = x0) {pub : Option (List Bytes)} {ish : List (Prio3InputShare F)} {ms ps : ℕ → List F}
    {bl : ℕ → Option Bytes} {prs jrs : List F} {π : ℕ → List F}
    (S : P.Sharded ctx nonce [x0] pub ish ms ps bl prs jrs π) {meas' : List F} (hne : meas' ≠ ms 0)
    {ish' : ℕ → Prio3InputShare F} (hl : ish' 0 = .leader meas' (ps 0) (bl 0))
    (hh : ∀ j, 0 < j → j < P.shares → ish[j]? = some (ish' j)) {vk : Bytes} {st sh : ℕ → List F × Option Bytes}
    {msg : Option Bytes} : ¬ Spec.VerifySucceeds P vk ctx nonce pub ish' st sh msg := by
  intro h
  have hN := W.shares_ge
  obtain ⟨ms', ps', bl', jrs', qrs, e1, -, -, e2⟩ := joint_of_success (by omega) h
  have hms : ∀ j, 0 < j → j < P.shares → ms' j = ms j ∧ ps' j = ps j := by
    intro j hj hj'
    obtain ⟨s, k1, k2⟩ := S.expand j hj'
    rw [hh j hj hj'] at k1
    cases k1
    rw [e1 j hj'] at k2
    have := Prod.mk.inj (Except.ok.inj k2)
    exact ⟨this.1, (Prod.mk.inj this.2).1⟩
  have h00 : ms' 0 = meas' ∧ ps' 0 = ps 0 := by
    have := e1 0 (by omega)
    rw [hl] at this
    unfold expandInputShare at this
    rw [if_neg (by omega)] at this
    have := Prod.mk.inj (Except.ok.inj this)
    exact ⟨this.1.symm, (Prod.mk.inj this.2).1.symm⟩
  have hps : ∀ j < P.shares, ps' j = ps j := by
    intro j hj
    rcases Nat.eq_zero_or_pos j with rfl | h1
    · exact h00.2
    · exact (hms j h1 hj).2
  obtain ⟨v0, -, hquery⟩ := queryLoop_ok (e2 0 (by omega)).2.2
  have hlen0 := query_ok_len W (by omega) W.modulus (hquery 0 hpr)
  obtain ⟨qr, hqr⟩ : ∃ qr : Fin P.flp.queryRandLen → F, List.ofFn qr = blk P.flp.queryRandLen qrs 0 :=
    ⟨fun i => (blk P.flp.queryRandLen qrs 0)[i]'(by rw [hlen0.2.2.1]; exact i.2),
      List.ext_getElem (by simp [hlen0.2.2.1]) (by simp)⟩
  obtain ⟨vs, v, hv1, hv2, hv3⟩ := pass_of_success W (fun j hj => (e2 j hj).2.2) h.2.1 hpr qr hqr
  have hlen := fun j hj => query_ok_len W (by omega) W.modulus (hv1 j hj)
  have hmeasL : P.flp.measLen = 1 := by rw [hV]; rfl
  have hjrL : P.flp.jointRandLen = 0 := by rw [hV]; rfl
  -- the sums
  have s1 : Spec.IsSum (fun j : Fin P.shares => ms' j) _ := isSum_range fun j hj => (hlen j hj).1
  have s2 : Spec.IsSum (fun j : Fin P.shares => blk P.proofLen (ps' j) 0) (π 0) := by
    have := isSum_blk S.proofSum P.proofLen 0
    rw [blk_flatMap (fun i hi => (S.prove i hi).2) hpr] at this
    convert this using 2 with j
    rw [hps j j.2]
  have hjr : (blk P.flp.jointRandLen jrs' 0) = [] := by
    apply List.eq_nil_of_length_eq_zero
    rw [(hlen 0 (by omega)).2.2.2.1, hjrL]
  have hjr' : (blk P.flp.jointRandLen jrs 0) = [] := by
    unfold blk
    rw [hjrL]
    simp
  have hx : (tab P.flp.measLen fun k => ∑ j ∈ range P.shares, coef (ms' j) k) =
      [∑ j ∈ range P.shares, coef (ms' j) 0] := by
    rw [hmeasL]; rfl
  rw [hx] at s1
  have hprove := (S.prove 0 hpr).1
  rw [hjr'] at hprove
  rw [hjr] at hv1
  obtain ⟨M, hM⟩ : ∃ M, P.shares = M + 1 := ⟨P.shares - 1, by omega⟩
  have hprl : (blk P.flp.proveRandLen prs 0).length = P.flp.proveRandLen := by
    have : P.flp.proveRandLen * 1 ≤ P.flp.proveRandLen * P.proofs := Nat.mul_le_mul_left _ hpr
    unfold blk
    rw [List.length_take, List.length_drop, S.prsLen]
    omega
  have hxne : (∑ j ∈ range P.shares, coef (ms' j) 0) ≠ x0 := by
    intro hc
    have hsum := (isSum_iff.1 S.measSum).2 0
    have hx0 : coef [x0] 0 = x0 := rfl
    rw [hx0, Fin.sum_univ_eq_sum_range (fun j => coef (ms j) 0)] at hsum
    rw [hM, sum_range_succ'] at hc hsum
    have : ∑ k ∈ range M, coef (ms' (k + 1)) 0 = ∑ k ∈ range M, coef (ms (k + 1)) 0 :=
      sum_congr rfl fun k hk => by
        rw [(hms (k + 1) (by omega) (by rw [mem_range] at hk; omega)).1]
    rw [this, hsum] at hc
    have hc := add_left_cancel hc
    rw [h00.1] at hc
    apply hne
    have l1 : meas'.length = 1 := by rw [← h00.1, (hlen 0 (by omega)).1, hmeasL]
    have l2 : (ms 0).length = 1 := (isSum_iff.1 S.measSum).1 ⟨0, by omega⟩
    rw [eq_tab l1, eq_tab l2]
    apply tab_congr
    intro k hk
    obtain rfl : k = 0 := by omega
    exact hc
  rcases W.lawful.query_sum (by omega) W.modulus s1 s2 (by rw [hmeasL]; rfl)
      (by rw [(S.prove 0 hpr).2]; exact Except.ok.inj (W.proofLen.symm.trans W.lawful.proofLen_eq)) (qr := List.ofFn qr) (jr := []) (by simp) hjrL.symm with
    ⟨-, hbad⟩ | ⟨w, ws, q1, q2, q3⟩
  · have := hbad ⟨0, by omega⟩
    have h' := hv1 0 (by omega)
    dsimp only at this
    rw [h'] at this
    cases this
  · have q3' : Spec.IsSum (fun j : Fin P.shares => vs j) w := by
      convert q3 using 2 with j
      have := q2 j
      rw [hv1 j j.2] at this
      exact Except.ok.inj this
    have hvv : v = w := IsSum.unique hv2 q3' ((hv2.1 ⟨0, by omega⟩).symm.trans (q3'.1 ⟨0, by omega⟩))
    subst hvv
    revert hprove q1 hv3 hprl
    generalize hqq : List.ofFn qr = Q
    have hQ : Q.length = P.flp.queryRandLen := by rw [← hqq]; simp
    revert hQ
    rw [hV]
    intro hQ hv3 hprove hprl q1
    rw [Count.other_rejected hfit h0 hxne hprl hQ hprove q1] at hv3
    cases hv3

end Vdaf
