import Verif.Spec.Circuit
import Verif.Proofs.Prio3Inst

/-! `Spec.Circuit` and `Valid.Lawful` say the same. -/

set_option linter.unusedSectionVars false

namespace Vdaf
open Finset Polynomial

variable {F : Type} [NttField F] {Meas Agg : Type}

theorem gadgetLaw_iff {g : Gadget F} {L : ℕ} : Spec.GadgetLaw g (2 ^ L) ↔ g.Lawful L := by
  unfold Spec.GadgetLaw Gadget.Lawful
  have hdeg : ∀ q : F[X], q.natDegree ≤ g.degree * (2 ^ L - 1) ↔
      q.degree < ((gadgetPolyLen g.degree (2 ^ L) : ℕ) : WithBot ℕ) := by
    intro q
    unfold gadgetPolyLen
    by_cases hq : q = 0
    · subst hq
      simp only [natDegree_zero, degree_zero, Nat.zero_le, true_iff]
      exact WithBot.bot_lt_coe _
    · rw [degree_eq_natDegree hq]
      norm_cast
      omega
  have hn : nextPowerOf2 (gadgetPolyLen g.degree (2 ^ L)) =
      .ok (2 ^ Nat.size (gadgetPolyLen g.degree (2 ^ L) - 1)) :=
    nextPowerOf2_of_pos (by simp [gadgetPolyLen])
  refine forall_congr' fun ws => forall_congr' fun _ => forall_congr' fun _ => exists_congr fun q => ?_
  rw [hdeg]
  refine and_congr_right fun _ => ?_
  rw [and_comm]
  refine and_congr_left fun _ => ?_
  constructor
  · intro h
    exact h L _ rfl hn
  · intro h l n hl hn'
    rw [hn] at hn'
    have h1 : L = l := Nat.pow_right_injective le_rfl hl
    have h2 : Nat.size (gadgetPolyLen g.degree (2 ^ L) - 1) = n :=
      Nat.pow_right_injective le_rfl (Except.ok.inj hn')
    subst h1
    rw [← h2]
    exact h

theorem lockstep_iff {N : ℕ} {p : Prog F (List F)} {ps : Fin N → Prog F (List F)} :
    Spec.Lockstep p ps ↔ Prog.Lock Spec.IsSum p ps := by
  constructor
  · intro h
    induction h with
    | done h => exact ⟨_, fun _ => rfl, h⟩
    | call h _ ih => exact ⟨_, _, fun _ => rfl, h, ih⟩
  · intro h
    induction p generalizing ps with
    | pure a =>
      obtain ⟨as, h1, h2⟩ := h
      obtain rfl : ps = fun i => .pure (as i) := funext h1
      exact .done h2
    | raise e => exact absurd h id
    | call g inp k ih =>
      obtain ⟨inps, ks, h1, h2, h3⟩ := h
      obtain rfl : ps = fun i => .call g (inps i) (ks i) := funext h1
      exact .call h2 fun ys => ih _ (h3 ys)

/-- A list as a function that is zero beyond its end. -/
def cnt (l : List ℕ) (g : ℕ) : ℕ := l.getD g 0

theorem cnt_set {l : List ℕ} {g c : ℕ} (h : l[g]? = some (c + 1)) :
    cnt l = cnt (l.set g c) + Pi.single g 1 := by
  funext i
  obtain ⟨hg, hgc⟩ := List.getElem?_eq_some_iff.1 h
  by_cases hi : i = g
  · subst hi
    simp [cnt, hg, hgc]
  · simp [cnt, List.getD_eq_getElem?_getD, Ne.symm hi, hi]

theorem disciplined_iff {ars : List ℕ} {n : ℕ} {calls : List ℕ} (hl : calls.length = ars.length)
    {p : Prog F (List F)} :
    Spec.Disciplined ars n calls p ↔ p.WF ars.length (cnt ars) (fun out => out.length = n) (cnt calls) := by
  constructor
  · intro h
    induction h with
    | @done calls out h1 h2 =>
      refine ⟨fun g => ?_, h2⟩
      unfold cnt
      rw [List.getD_eq_getElem?_getD]
      cases h : calls[g]? with
      | none => rfl
      | some c => exact h1 c (List.mem_of_getElem? h)
    | @call calls g c inp k h1 h2 _ ih =>
      obtain ⟨hg, hga⟩ := List.getElem?_eq_some_iff.1 h2
      refine ⟨hg, by simp [cnt, hg, hga], cnt (calls.set g c), cnt_set h1, fun y => ih y (by simpa using hl)⟩
  · intro h
    induction p generalizing calls with
    | pure a =>
      refine .done (fun c hc => ?_) h.2
      obtain ⟨i, hi, rfl⟩ := List.mem_iff_getElem.1 hc
      have := h.1 i
      simpa [cnt, hi] using this
    | raise e => exact absurd h id
    | call g inp k ih =>
      obtain ⟨h1, h2, c', h3, h4⟩ := h
      have hg : calls[g]? = some (c' g + 1) := by
        have := congrFun h3 g
        rw [List.getElem?_eq_getElem (by omega)]
        simpa [cnt, show g < calls.length by omega] using this
      have hc' : c' = cnt (calls.set g (c' g)) := by
        have := cnt_set hg
        rw [h3] at this
        exact add_right_cancel this
      refine .call hg ?_ fun y => ih y (by simpa using hl) ?_
      · rw [List.getElem?_eq_getElem h1, h2]
        simp [cnt, h1]
      · rw [← hc']; exact h4 y

theorem circuit_iff {V : Valid F Meas Agg} : Spec.Circuit V ↔ V.Lawful := by
  have hgad : ∀ g < V.num, V.gadgets[g]? = some (V.gad g) := fun g hg => by
    unfold Valid.num at hg
    simp [Valid.gad, hg]
  have hcal : V.gadgetCalls.length = V.gadgets.length → ∀ g < V.num, V.gadgetCalls[g]? = some (V.calls g) :=
    fun hl g hg => by
      unfold Valid.num at hg
      rw [← hl] at hg
      simp [Valid.calls, hg]
  have hwf : V.gadgetCalls.length = V.gadgets.length → ∀ p : Prog F (List F),
      (Spec.Disciplined (V.gadgets.map Gadget.arity) V.evalOutputLen V.gadgetCalls p ↔
        p.WF V.num V.ar (fun out => out.length = V.evalOutputLen)
          (fun g => if g < V.num then V.calls g else 0)) := by
    intro hl p
    rw [disciplined_iff (by simpa using hl)]
    have h1 : cnt V.gadgetCalls = fun g => if g < V.num then V.calls g else 0 := by
      funext g
      split
      · rfl
      · next h => unfold cnt; unfold Valid.num at h; simp [show V.gadgetCalls.length ≤ g by omega]
    have h2 : ∀ g < V.num, cnt (V.gadgets.map Gadget.arity) g = V.ar g := by
      intro g hg
      unfold Valid.num at hg
      simp [cnt, Valid.ar, Valid.gad, hg]
    rw [h1]
    simp only [List.length_map]
    show Prog.WF V.num _ _ _ _ ↔ _
    generalize (fun g => if g < V.num then V.calls g else 0) = c
    induction p generalizing c with
    | pure a => rfl
    | raise e => rfl
    | call g inp k ih =>
      simp only [Prog.WF]
      refine and_congr_right fun hg => ?_
      rw [h2 g hg]
      refine and_congr_right fun _ => exists_congr fun c' => and_congr_right fun _ => ?_
      exact forall_congr' fun y => ih y c'
  constructor
  · intro h
    refine ⟨h.calls_length, ?_, ?_, ?_, ?_, ?_, h.output_pos, ?_, ?_⟩
    · intro g hg
      exact h.calls_pos _ (List.mem_of_getElem? (hcal h.calls_length g hg))
    · intro g hg
      exact (h.gadget_pos _ (List.mem_of_getElem? (hgad g hg))).1
    · intro g hg
      exact (h.gadget_pos _ (List.mem_of_getElem? (hgad g hg))).2
    · intro g hg
      exact cap_size (h.fits g _ _ _ (hgad g hg) (hcal h.calls_length g hg) (V.wirePolyLen_eq g))
    · intro g hg
      exact gadgetLaw_iff.1 (h.gadget g _ _ _ (hgad g hg) (hcal h.calls_length g hg) (V.wirePolyLen_eq g))
    · intro meas jr N h1 h2 h3 h4
      exact (hwf h.calls_length _).1 (h.eval meas jr N h1 h2 h3 h4)
    · intro N h1 h2 ms meas jr h3 h4 h5
      exact lockstep_iff.1 (h.shares N ms meas jr h1 h2 h3 h4 h5)
  · intro h
    have idx : ∀ (i : ℕ) (g : Gadget F) (c p : ℕ), V.gadgets[i]? = some g → V.gadgetCalls[i]? = some c →
        wirePolyLen c = .ok p → i < V.num ∧ g = V.gad i ∧ c = V.calls i ∧ p = 2 ^ V.L i := by
      intro i g c p h1 h2 h3
      have hi : i < V.num := (List.getElem?_eq_some_iff.1 h1).1
      rw [hgad i hi] at h1
      rw [hcal h.len i hi] at h2
      cases h1; cases h2
      rw [V.wirePolyLen_eq] at h3
      exact ⟨hi, rfl, rfl, (Except.ok.inj h3).symm⟩
    refine ⟨h.len, ?_, ?_, h.out_pos, ?_, ?_, ?_, ?_⟩
    · intro c hc
      obtain ⟨i, hi, rfl⟩ := List.mem_iff_getElem.1 hc
      have := h.calls_pos i (by rw [Valid.num, ← h.len]; exact hi)
      simpa [Valid.calls, hi] using this
    · intro g hg
      obtain ⟨i, hi, rfl⟩ := List.mem_iff_getElem.1 hg
      have h1 := h.ar_pos i hi
      have h2 := h.deg_pos i hi
      constructor
      · simpa [Valid.ar, Valid.gad, hi] using h1
      · simpa [Valid.gad, hi] using h2
    · intro i g c p h1 h2 h3
      obtain ⟨hi, rfl, rfl, rfl⟩ := idx i g c p h1 h2 h3
      have := h.cap i hi
      rw [NttField.genOrder_eq]
      exact (V.m_le i).trans (Nat.pow_le_pow_right (by decide) this)
    · intro i g c p h1 h2 h3
      obtain ⟨hi, rfl, rfl, rfl⟩ := idx i g c p h1 h2 h3
      exact gadgetLaw_iff.2 (h.gadget i hi)
    · intro meas jr N h1 h2 h3 h4
      exact (hwf h.len _).2 (h.wf meas jr N h1 h2 h3 h4)
    · intro N ms meas jr h1 h2 h3 h4 h5
      exact lockstep_iff.2 (h.affine N h1 h2 ms meas jr h3 h4 h5)

end Vdaf
