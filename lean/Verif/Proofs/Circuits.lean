import Verif.Proofs.RangeInt
import Verif.Proofs.Gadgets
import Verif.Proofs.FlpMain

/-! The validity circuits of the library are lawful; what they compute. -/

set_option linter.unusedSectionVars false
set_option linter.unusedVariables false

namespace Vdaf
open Finset

section
variable {F : Type} [NttField F]

theorem Prog.bind_eq' {α β : Type} (p : Prog F α) (f : α → Prog F β) : (p >>= f) = p.bind f := rfl
theorem Prog.pure_eq' {α : Type} (a : α) : (Pure.pure a : Prog F α) = .pure a := rfl

/-! ### the value of a program when gadgets are evaluated -/

/-- With answers `ans` the program returns `a`. -/
def Prog.Val {α : Type} (ans : ℕ → ℕ → List F → F) (p : Prog F α) (a : α) : Prop :=
  ∀ log, ∃ log', p.trace ans log = .ok (a, log')

namespace Prog
variable {α β : Type} {ans : ℕ → ℕ → List F → F}

theorem trace_bind {p : Prog F α} {f : α → Prog F β} (log : Log F) :
    (p.bind f).trace ans log = (p.trace ans log).bind fun (a, log) => (f a).trace ans log := by
  induction p generalizing log with
  | pure a => rfl
  | raise e => rfl
  | call g inp k ih => simp only [Prog.bind, trace]; exact ih _ _

theorem Val.bind {p : Prog F α} {f : α → Prog F β} {a : α} {b : β} (hp : p.Val ans a)
    (hf : (f a).Val ans b) : (p.bind f).Val ans b := by
  intro log
  obtain ⟨log', h⟩ := hp log
  obtain ⟨log'', h'⟩ := hf log'
  exact ⟨log'', by rw [trace_bind, h]; exact h'⟩

theorem Val.ofRes {r : Res α} {a : α} (h : r = .ok a) : (ofRes r : Prog F α).Val ans a := by
  subst h; exact fun log => ⟨log, rfl⟩

theorem Val.pure (a : α) : (.pure a : Prog F α).Val ans a := fun log => ⟨log, rfl⟩

theorem Val.call {g : ℕ} {inp : List F} {y : F} (h : ∀ k, ans g k inp = y) :
    (.call g inp .pure : Prog F F).Val ans y := fun log => ⟨_, by
  simp only [trace, h]; rfl⟩

theorem Val.forFold (l : List β) (f : α → β → Prog F α) (P : ℕ → α)
    (hs : ∀ i (hi : i < l.length), (f (P i) l[i]).Val ans (P (i + 1))) :
    (forFold l (P 0) f).Val ans (P l.length) := by
  induction l generalizing P with
  | nil => exact Val.pure _
  | cons b t ih =>
    simp only [Prog.forFold, List.length_cons]
    exact Val.bind (hs 0 (by simp)) (ih (fun i => P (i + 1)) fun i hi => hs (i + 1) (by simpa using hi))

end Prog

/-- The value of the circuit with its own gadgets, from `Prog.Val`. -/
theorem Valid.Lawful.evalPlain_val {Meas Agg : Type} {V : Valid F Meas Agg} (h : V.Lawful)
    {meas jr out : List F} {N : ℕ} (hmeas : meas.length = V.measLen)
    (hjr : jr.length = V.jointRandLen) (hN : 1 ≤ N) (hN' : N < PyField.modulus F)
    (hv : (V.eval meas jr N).Val (fun g _ inp => (V.gad g).val inp) out) :
    V.evalPlain meas jr N = .ok out := by
  obtain ⟨out', log, h1, -, -, -, h2⟩ := h.evalPlain_eq hmeas hjr hN hN'
  obtain ⟨log', h3⟩ := hv (fun _ => [])
  rw [h1] at h3
  obtain ⟨rfl, -⟩ : out' = out ∧ log = log' := by simpa using h3
  exact h2

/-! ### `ParallelSum(Mul)` -/

theorem val_of_eval {G : Gadget F} {inp : List F} {y : F} (h : G.eval inp = .ok y) :
    G.val inp = y := by unfold Gadget.val; rw [h]

theorem parallelMul_val (cl : ℕ) (inp : List F) (h : inp.length = 2 * cl) :
    (ParallelSum (Mul F) cl).val inp =
      ∑ j ∈ range cl, coef inp (j * 2) * coef inp (j * 2 + 1) := by
  apply val_of_eval
  simp only [ParallelSum, Gadget.checkEval]
  rw [raiseIf_of_not (by simpa [Mul] using h)]
  simp only [Except.ok_bind']
  obtain ⟨b, hb, hP⟩ := forFold_range cl (0 : F)
    (fun out i => do
      let y ← (Mul F).eval (slice inp (i * (Mul F).arity) ((i + 1) * (Mul F).arity))
      return out + y)
    (fun i b => b = ∑ j ∈ range i, coef inp (j * 2) * coef inp (j * 2 + 1)) (by simp) (by
      rintro i hi _ rfl
      have hs : slice inp (i * (Mul F).arity) ((i + 1) * (Mul F).arity) =
          [coef inp (i * 2), coef inp (i * 2 + 1)] := by
        simp only [Mul]
        apply List.ext_getElem
        · rw [slice_length _ _ _ (by omega)]; simp; omega
        · intro k h1 h2
          simp only [List.length_cons, List.length_nil] at h2
          have : k = 0 ∨ k = 1 := by omega
          rcases this with rfl | rfl
          · rw [List.getElem_cons_zero, coef_of_lt (by omega)]
            simp [slice]
          · rw [List.getElem_cons_succ, List.getElem_cons_zero, coef_of_lt (by omega)]
            simp [slice]
      rw [hs, mul_eval]
      exact ⟨_, rfl, (sum_range_succ _ _).symm⟩)
  refine (show _ = _ from hb).trans ?_
  rw [hP]

theorem parallelMul_lawful {L cl : ℕ} (hL : 1 ≤ L) (hcap : L + 1 ≤ NttField.logOrder F)
    (hc : 1 ≤ cl) : (ParallelSum (Mul F) cl).Lawful L :=
  parallelSum_lawful (mul_lawful hL hcap) hc (by simp [Mul])

/-! ### the chunk loop -/

/-- The inputs of gadget call `i`. -/
def chunkInp (meas : List F) (si r : F) (cl i : ℕ) (k : ℕ) : F :=
  if k % 2 = 0 then r ^ (k / 2 + 1) * coef meas (i * cl + k / 2)
  else coef meas (i * cl + k / 2) - si

theorem chunkStep_loop (meas : List F) (si r : F) (cl i : ℕ) :
    forFold (List.range cl) (List.replicate (2 * cl) (0 : F), r) (chunkStep meas si r cl i) =
      .ok (tab (2 * cl) (chunkInp meas si r cl i), r ^ (cl + 1)) := by
  obtain ⟨b, hb, hP⟩ := forFold_range cl (List.replicate (2 * cl) (0 : F), r)
    (chunkStep meas si r cl i)
    (fun n st => st = (tab (2 * cl) (fun k => if k < 2 * n then chunkInp meas si r cl i k else 0),
      r ^ (n + 1))) (by simp [tab]) (by
      rintro n hn _ rfl
      unfold chunkStep
      simp only
      have hme : padGet meas (i * cl + n) = (.ok (coef meas (i * cl + n)) : Res F) := by
        unfold padGet
        split
        · next h => rw [getI_of_lt h, coef_of_lt h]
        · next h => rw [coef_of_le (by omega)]
      rw [hme]
      simp only [Except.ok_bind']
      rw [setI_tab (by omega)]
      simp only [Except.ok_bind']
      rw [setI_tab (by omega)]
      refine ⟨_, rfl, ?_⟩
      rw [← pow_succ]
      congr 1
      apply tab_congr
      intro k hk
      by_cases h1 : k = n * 2 + 1
      · subst h1
        rw [Function.update_self, if_pos (by omega), chunkInp, if_neg (by omega),
          show (n * 2 + 1) / 2 = n by omega]
      · rw [Function.update_of_ne h1]
        by_cases h2 : k = n * 2
        · subst h2
          rw [Function.update_self, if_pos (by omega), chunkInp, if_pos (by omega),
            show (n * 2) / 2 = n by omega]
        · rw [Function.update_of_ne h2]
          by_cases h3 : k < 2 * n
          · rw [if_pos h3, if_pos (by omega)]
          · rw [if_neg h3, if_neg (by omega)])
  rw [hb, hP]
  congr 2
  apply tab_congr
  intro k hk
  rw [if_pos hk]

theorem chunkLoop_eq (meas jr : List F) (si : F) (cl calls : ℕ) (hjr : jr.length = calls) :
    chunkLoop meas jr si cl calls = Prog.forFold (List.range calls) (0 : F) fun rc i =>
      (if i < calls then
        Prog.call 0 (tab (2 * cl) (chunkInp meas si (coef jr i) cl i)) fun y => .pure (rc + y)
      else .raise .index) := by
  unfold chunkLoop
  have : ∀ (l : List ℕ) (init : F) (f g : F → ℕ → Prog F F), (∀ a i, f a i = g a i) →
      Prog.forFold l init f = Prog.forFold l init g := by
    intro l init f g h
    rw [show f = g from funext fun a => funext fun i => h a i]
  apply this
  intro rc i
  simp only [Prog.bind_eq', Prog.pure_eq']
  by_cases hi : i < calls
  · rw [if_pos hi, getI_of_lt (by omega)]
    simp only [Prog.ofRes, Prog.bind]
    rw [chunkStep_loop, coef_of_lt (by omega)]
    rfl
  · rw [if_neg hi]
    simp only [getI, show jr[i]? = none from List.getElem?_eq_none (by omega), Prog.ofRes, Prog.bind]

theorem chunkLoop_wf (meas jr : List F) (si : F) (cl calls : ℕ) (hjr : jr.length = calls)
    (ar : ℕ → ℕ) (har : ar 0 = 2 * cl) :
    (chunkLoop meas jr si cl calls).WF 1 ar (fun _ => True)
      (fun g => if g < 1 then calls else 0) := by
  rw [chunkLoop_eq _ _ _ _ _ hjr]
  have := Prog.WF.forFold (n := 1) (ar := ar) (List.range calls) (0 : F)
    (fun rc i => (if i < calls then
        Prog.call 0 (tab (2 * cl) (chunkInp meas si (coef jr i) cl i)) fun y => .pure (rc + y)
      else .raise .index)) (Pi.single 0 1) (fun _ _ => True) trivial (by
      intro i hi a _
      simp only [List.length_range] at hi
      rw [List.getElem_range, if_pos hi]
      exact ⟨by omega, by simp [har], 0, by simp, fun y => ⟨fun _ => rfl, trivial⟩⟩)
  convert this using 2 with g
  by_cases hg : g = 0
  · subst hg; simp
  · simp [hg]

theorem chunkLoop_lock {N : ℕ} (ms : Fin N → List F) (meas jr : List F) (si : F) (cl calls : ℕ)
    (hms : Spec.IsSum ms meas) (hjr : jr.length = calls) (hsi : ∑ _i : Fin N, si = 1) :
    Prog.Lock (fun as a => a = ∑ i, as i) (chunkLoop meas jr 1 cl calls)
      (fun i => chunkLoop (ms i) jr si cl calls) := by
  simp only [chunkLoop_eq _ _ _ _ _ hjr]
  apply Prog.Lock.forFold (fun as a => a = ∑ i, as i) _ (0 : F) (fun _ => (0 : F))
  · simp
  · intro i hi as a ha
    have hi : i < calls := by simpa using hi
    simp only [if_pos hi]
    refine ⟨_, _, fun _ => rfl, isSum_tab ?_, fun ys => ⟨_, fun _ => rfl, ?_⟩⟩
    · intro k _
      unfold chunkInp
      have hc := (isSum_iff.1 hms).2 (i * cl + k / 2)
      split
      · rw [hc, mul_sum]
      · rw [hc, sum_sub_distrib, hsi]
    · simp only
      rw [ha, sum_add_distrib]

theorem chunkLoop_val (meas jr : List F) (cl calls : ℕ) (hjr : jr.length = calls)
    {ans : ℕ → ℕ → List F → F}
    (hans : ∀ k inp, ans 0 k inp = (ParallelSum (Mul F) cl).val inp) :
    (chunkLoop meas jr 1 cl calls).Val ans
      (∑ i ∈ range calls, ∑ j ∈ range cl, coef jr i ^ (j + 1) *
        (coef meas (i * cl + j) * (coef meas (i * cl + j) - 1))) := by
  rw [chunkLoop_eq _ _ _ _ _ hjr]
  have := Prog.Val.forFold (ans := ans) (List.range calls)
    (fun rc i => (if i < calls then
        Prog.call 0 (tab (2 * cl) (chunkInp meas 1 (coef jr i) cl i)) fun y => .pure (rc + y)
      else .raise .index))
    (fun n => ∑ i ∈ range n, ∑ j ∈ range cl, coef jr i ^ (j + 1) *
        (coef meas (i * cl + j) * (coef meas (i * cl + j) - 1))) (by
      intro i hi
      simp only [List.length_range] at hi
      rw [List.getElem_range, if_pos hi]
      intro log
      refine ⟨Function.update log 0 (log 0 ++ [tab (2 * cl) (chunkInp meas 1 (coef jr i) cl i)]), ?_⟩
      simp only [Prog.trace]
      rw [hans, parallelMul_val _ _ (by simp), sum_range_succ]
      congr 3
      apply sum_congr rfl
      intro j hj
      have hj : j < cl := by simpa using hj
      rw [coef_tab, if_pos (by omega), coef_tab, if_pos (by omega)]
      unfold chunkInp
      rw [if_pos (by omega), if_neg (by omega), show j * 2 / 2 = j by omega,
        show (j * 2 + 1) / 2 = j by omega]
      ring)
  simpa using this

/-! ### lawfulness -/

theorem sum_shares_inv {N : ℕ} (hN : 1 ≤ N) (hN' : N < PyField.modulus F) :
    ∑ _i : Fin N, ((N : F))⁻¹ = 1 := by
  rw [Finset.sum_const, card_univ, Fintype.card_fin, nsmul_eq_mul]
  apply mul_inv_cancel₀
  intro h
  have := natCast_inj_of_lt hN' (modulus_pos F) (by simpa using h)
  omega

theorem checkValidEval_ok {a b : ℕ} {meas jr : List F} (h1 : meas.length = a) (h2 : jr.length = b) :
    checkValidEval a b meas jr = .ok () := by
  unfold checkValidEval
  rw [raiseIf_of_not (by simpa using h1)]
  simp only [Except.ok_bind']
  rw [raiseIf_of_not (by simpa using h2)]

theorem fits_cap1 {Meas Agg : Type} {V : Valid F Meas Agg} (h : Spec.Fits V) {g : Gadget F}
    {c : ℕ} (hg : V.gadgets = [g]) (hc : V.gadgetCalls = [c]) :
    Nat.size (gadgetPolyLen g.degree (2 ^ Nat.size c) - 1) ≤ NttField.logOrder F := by
  have := h 0 g c (2 ^ Nat.size c) (by simp [hg]) (by simp [hc])
    (by unfold wirePolyLen; rw [nextPowerOf2_of_pos (by omega)]; simp)
  rw [NttField.genOrder_eq] at this
  rw [Nat.size_le]
  have h0 : 0 < gadgetPolyLen g.degree (2 ^ Nat.size c) := by simp [gadgetPolyLen]
  omega

/-- Circuits with a single gadget. -/
theorem lawful_single {Meas Agg : Type} {V : Valid F Meas Agg} {G : Gadget F} {c : ℕ}
    (hG : V.gadgets = [G]) (hc : V.gadgetCalls = [c]) (hc1 : 1 ≤ c) (har : 1 ≤ G.arity)
    (hdeg : 1 ≤ G.degree) (hfit : Spec.Fits V) (hlaw : G.Lawful (Nat.size c))
    (hout : 1 ≤ V.evalOutputLen)
    (hwf : ∀ (meas jr : List F) (N : ℕ), meas.length = V.measLen → jr.length = V.jointRandLen →
      1 ≤ N → N < PyField.modulus F → ∀ ar : ℕ → ℕ, ar 0 = G.arity →
      (V.eval meas jr N).WF 1 ar (fun out => out.length = V.evalOutputLen)
        (fun g => if g < 1 then c else 0))
    (haff : ∀ (N : ℕ), 1 ≤ N → N < PyField.modulus F → ∀ (ms : Fin N → List F) (meas jr : List F),
      Spec.IsSum ms meas → meas.length = V.measLen → jr.length = V.jointRandLen →
      Prog.Lock Spec.IsSum (V.eval meas jr 1) (fun i => V.eval (ms i) jr N)) : V.Lawful := by
  have hnum : V.num = 1 := by simp [Valid.num, hG]
  have hgad : V.gad 0 = G := by simp [Valid.gad, hG]
  have hcalls : V.calls 0 = c := by simp [Valid.calls, hc]
  have h0 : ∀ g, g < V.num → g = 0 := by intro g hg; omega
  refine ⟨by simp [hG, hc], ?_, ?_, ?_, ?_, ?_, hout, ?_, haff⟩
  · intro g hg; rw [h0 g hg, hcalls]; exact hc1
  · intro g hg; rw [h0 g hg, Valid.ar, hgad]; exact har
  · intro g hg; rw [h0 g hg, hgad]; exact hdeg
  · intro g hg; rw [h0 g hg]
    simp only [Valid.M, Valid.m, Valid.L, hgad, hcalls]
    exact fits_cap1 hfit hG hc
  · intro g hg; rw [h0 g hg, hgad, Valid.L, hcalls]; exact hlaw
  · intro meas jr N h1 h2 h3 h4
    have := hwf meas jr N h1 h2 h3 h4 V.ar (by simp [Valid.ar, hgad])
    rw [hnum]
    convert this using 2 with g
    split
    · next h => rw [show g = 0 by omega, hcalls]
    · rfl

theorem size_pos' {c : ℕ} (h : 1 ≤ c) : 1 ≤ Nat.size c := Nat.size_pos.2 h

theorem numCalls_pos {n cl : ℕ} (hn : 1 ≤ n) (hc : 1 ≤ cl) : 1 ≤ numCalls n cl := by
  unfold numCalls
  exact Nat.div_pos (by omega) hc

theorem numCalls_mul {n cl : ℕ} (hc : 1 ≤ cl) : n ≤ numCalls n cl * cl := by
  unfold numCalls
  have h1 := Nat.div_add_mod (n + cl - 1) cl
  have h2 := Nat.mod_lt (n + cl - 1) hc
  rw [mul_comm] at h1
  omega

theorem fits_chunk {Meas Agg : Type} {V : Valid F Meas Agg} (h : Spec.Fits V) {cl c : ℕ}
    (hg : V.gadgets = [ParallelSum (Mul F) cl]) (hc : V.gadgetCalls = [c]) (hc1 : 1 ≤ c) :
    Nat.size c + 1 ≤ NttField.logOrder F := by
  have := fits_cap1 h hg hc
  rwa [show (ParallelSum (Mul F) cl).degree = 2 from rfl, size_mul_two (size_pos' hc1)] at this

theorem foldl_add (l : List F) (a : F) : l.foldl (fun s b => s + b) a = a + ∑ j ∈ range l.length, coef l j := by
  induction l generalizing a with
  | nil => simp
  | cons b t ih =>
    rw [List.foldl_cons, ih, List.length_cons, sum_range_succ']
    simp [coef]; ring

theorem foldl_add_sum {ι : Type} [Fintype ι] {ms : ι → List F} {meas : List F}
    (h : Spec.IsSum ms meas) (a : ι → F) :
    meas.foldl (fun s b => s + b) (∑ i, a i) = ∑ i, (ms i).foldl (fun s b => s + b) (a i) := by
  simp only [foldl_add, h.1]
  rw [sum_add_distrib]
  congr 1
  rw [sum_comm]
  exact sum_congr rfl fun j _ => (isSum_iff.1 h).2 j

theorem isSum_pair {ι : Type} [Fintype ι] {as bs : ι → F} {a b : F} (ha : a = ∑ i, as i)
    (hb : b = ∑ i, bs i) : Spec.IsSum (fun i => [as i, bs i]) [a, b] :=
  IsSum.append (as := fun i => [as i]) (a := [a]) (isSum_singleton ha) (isSum_singleton hb)

theorem isSum_take {ι : Type} [Fintype ι] {ms : ι → List F} {meas : List F}
    (h : Spec.IsSum ms meas) (n : ℕ) : Spec.IsSum (fun i => (ms i).take n) (meas.take n) := by
  rw [isSum_iff] at h ⊢
  refine ⟨fun i => by simp [h.1 i], fun j => ?_⟩
  have := h.2 j
  simp only [coef, List.getD_eq_getElem?_getD, List.getElem?_take] at this ⊢
  by_cases hj : j < n
  · simpa [hj] using this
  · simp [hj]

theorem isSum_drop {ι : Type} [Fintype ι] {ms : ι → List F} {meas : List F}
    (h : Spec.IsSum ms meas) (n : ℕ) : Spec.IsSum (fun i => (ms i).drop n) (meas.drop n) := by
  rw [isSum_iff] at h ⊢
  refine ⟨fun i => by simp [h.1 i], fun j => ?_⟩
  have := h.2 (n + j)
  simp only [coef, List.getD_eq_getElem?_getD, List.getElem?_drop] at this ⊢
  exact this

/-! ### `Count` -/

theorem Count.eval_eq {meas jr : List F} (N : ℕ) (hm : meas.length = 1) (hj : jr.length = 0) :
    (Count F).eval meas jr N =
      .call 0 [coef meas 0, coef meas 0] fun y => .pure [y - coef meas 0] := by
  simp only [Count, Prog.bind_eq', Prog.pure_eq']
  rw [checkValidEval_ok hm hj, getI_of_lt (by omega), coef_of_lt (by omega)]
  rfl

theorem Count.lawful (hfit : Spec.Fits (Count F)) : (Count F).Lawful := by
  refine lawful_single (G := Mul F) (c := 1) rfl rfl le_rfl (by simp [Mul]) (by simp [Mul]) hfit
    (mul_lawful (by simp) ?_) (by simp [Count]) ?_ ?_
  · have := fits_cap1 hfit (g := Mul F) (c := 1) rfl rfl
    rwa [show (Mul F).degree = 2 from rfl, size_mul_two (by simp)] at this
  · intro meas jr N h1 h2 _ _ ar har
    rw [Count.eval_eq N h1 h2]
    refine ⟨by omega, by simp [har, Mul], 0, ?_, fun y => ⟨fun _ => rfl, by simp [Count]⟩⟩
    funext g
    by_cases hg : g = 0
    · subst hg; simp
    · simp [hg]
  · intro N _ _ ms meas jr hs h1 h2
    rw [Count.eval_eq 1 h1 h2]
    have hc := (isSum_iff.1 hs).2 0
    refine ⟨_, _, fun i => Count.eval_eq N ((hs.1 i).trans h1) h2, isSum_pair hc hc,
      fun ys => ⟨_, fun i => rfl, isSum_singleton ?_⟩⟩
    rw [hc, sum_sub_distrib]

theorem Count.plain (hfit : Spec.Fits (Count F)) {meas : List F} {N : ℕ} (hm : meas.length = 1)
    (hN : 1 ≤ N) (hN' : N < PyField.modulus F) :
    (Count F).evalPlain meas [] N = .ok [coef meas 0 * (coef meas 0 - 1)] := by
  apply (Count.lawful hfit).evalPlain_val hm rfl hN hN'
  rw [Count.eval_eq N hm rfl]
  intro log
  refine ⟨Function.update log 0 (log 0 ++ [[coef meas 0, coef meas 0]]), ?_⟩
  · simp only [Prog.trace]
    have : (Valid.gad (Count F) 0).val [coef meas 0, coef meas 0] = coef meas 0 * coef meas 0 :=
      val_of_eval (mul_eval _ _)
    rw [this]
    congr 3
    ring

/-! ### `Histogram` -/

theorem Histogram.eval_eq {length cl : ℕ} {meas jr : List F} {N : ℕ} (hN : N < PyField.modulus F)
    (hm : meas.length = length) (hj : jr.length = numCalls length cl) :
    (Histogram.circuit F length cl).eval meas jr N =
      (chunkLoop meas jr (N : F)⁻¹ cl (numCalls length cl)).bind fun rc =>
        .pure [rc, meas.foldl (fun s b => s + b) (-(N : F)⁻¹)] := by
  simp only [Histogram.circuit, Prog.bind_eq', Prog.pure_eq']
  rw [checkValidEval_ok hm hj, ofInt_nat hN]
  rfl

theorem chunk_lawful {Meas Agg : Type} {V : Valid F Meas Agg} {cl n : ℕ} (hcl : 1 ≤ cl)
    (hn : 1 ≤ n) (hg : V.gadgets = [ParallelSum (Mul F) cl]) (hc : V.gadgetCalls = [numCalls n cl])
    (hml : V.measLen = n) (hjl : V.jointRandLen = numCalls n cl)
    (hfit : Spec.Fits V) (hout : 1 ≤ V.evalOutputLen) (K : List F → F → F → List F)
    (hK : ∀ meas si rc, meas.length = n → (K meas si rc).length = V.evalOutputLen)
    (hev : ∀ (meas jr : List F) (N : ℕ), 1 ≤ N → N < PyField.modulus F → meas.length = n →
      jr.length = numCalls n cl → V.eval meas jr N =
        (chunkLoop meas jr (N : F)⁻¹ cl (numCalls n cl)).bind fun rc => .pure (K meas (N : F)⁻¹ rc))
    (hlock : ∀ (N : ℕ), 1 ≤ N → N < PyField.modulus F → ∀ (ms : Fin N → List F) (meas : List F)
      (rcs : Fin N → F), Spec.IsSum ms meas → meas.length = n →
      Spec.IsSum (fun i => K (ms i) (N : F)⁻¹ (rcs i)) (K meas 1 (∑ i, rcs i))) : V.Lawful := by
  have hcp := numCalls_pos hn hcl
  have hcap := fits_chunk hfit hg hc hcp
  refine lawful_single hg hc hcp (by simp [ParallelSum, Mul]; omega)
    (by simp [ParallelSum, Mul]) hfit (parallelMul_lawful (size_pos' hcp) hcap hcl) hout ?_ ?_
  · intro meas jr N h1 h2 h3 h4 ar har
    rw [hev meas jr N h3 h4 (by omega) (by omega)]
    have := Prog.WF.bind (c2 := 0) (chunkLoop_wf meas jr (N : F)⁻¹ cl (numCalls n cl) (by omega) ar
      (by rw [har]; simp [ParallelSum, Mul])) (Q := fun out : List F => out.length = V.evalOutputLen)
      (f := fun rc => .pure (K meas (N : F)⁻¹ rc)) (by
        intro a _
        exact ⟨fun _ => rfl, hK _ _ _ (by omega)⟩)
    simpa using this
  · intro N h1 h2 ms meas jr hs h3 h4
    rw [hev meas jr 1 le_rfl (one_lt_modulus F) (by omega) (by omega)]
    simp only [hev _ jr N h1 h2 ((hs.1 _).trans (h3.trans hml)) (h4.trans hjl)]
    rw [Nat.cast_one, inv_one]
    apply Prog.Lock.bind (chunkLoop_lock ms meas jr (N : F)⁻¹ cl _ hs (by omega)
      (sum_shares_inv h1 h2))
    rintro as a rfl
    exact Prog.Lock.pure (hlock N h1 h2 ms meas as hs (by omega))

/-- The range check computed by the chunk loop. -/
def rangeSum (cl calls : ℕ) (meas jr : List F) : F :=
  ∑ i ∈ range calls, ∑ j ∈ range cl, coef jr i ^ (j + 1) *
    (coef meas (i * cl + j) * (coef meas (i * cl + j) - 1))

theorem chunk_plain {Meas Agg : Type} {V : Valid F Meas Agg} {cl n : ℕ} (hV : V.Lawful)
    (hg : V.gadgets = [ParallelSum (Mul F) cl])
    (hml : V.measLen = n) (hjl : V.jointRandLen = numCalls n cl)
    (K : List F → F → F → List F)
    (hev : ∀ (meas jr : List F) (N : ℕ), 1 ≤ N → N < PyField.modulus F → meas.length = n →
      jr.length = numCalls n cl → V.eval meas jr N =
        (chunkLoop meas jr (N : F)⁻¹ cl (numCalls n cl)).bind fun rc => .pure (K meas (N : F)⁻¹ rc))
    {meas jr : List F} (hm : meas.length = n) (hj : jr.length = numCalls n cl) :
    V.evalPlain meas jr 1 = .ok (K meas 1 (rangeSum cl (numCalls n cl) meas jr)) := by
  apply hV.evalPlain_val (by omega) (by omega) le_rfl (one_lt_modulus F)
  rw [hev meas jr 1 le_rfl (one_lt_modulus F) hm hj, Nat.cast_one, inv_one]
  exact Prog.Val.bind (chunkLoop_val meas jr cl _ hj (fun k inp => by
    simp [Valid.gad, hg])) (Prog.Val.pure _)

theorem Histogram.lawful {length cl : ℕ} (hl : 1 ≤ length) (hcl : 1 ≤ cl)
    (hfit : Spec.Fits (Histogram.circuit F length cl)) : (Histogram.circuit F length cl).Lawful := by
  refine chunk_lawful (K := fun meas si rc => [rc, meas.foldl (fun s b => s + b) (-si)]) hcl hl rfl rfl rfl rfl
    hfit (by simp [Histogram.circuit]) (by intros; simp [Histogram.circuit])
    (fun meas jr N _ hN hm hj => Histogram.eval_eq hN hm hj) ?_
  intro N h1 h2 ms meas rcs hs hm
  apply isSum_pair rfl
  rw [← foldl_add_sum hs, sum_neg_distrib, sum_shares_inv h1 h2]

theorem Histogram.plain {length cl : ℕ} (hl : 1 ≤ length) (hcl : 1 ≤ cl)
    (hfit : Spec.Fits (Histogram.circuit F length cl)) {meas jr : List F} (hm : meas.length = length)
    (hj : jr.length = numCalls length cl) :
    (Histogram.circuit F length cl).evalPlain meas jr 1 =
      .ok [rangeSum cl (numCalls length cl) meas jr, (∑ j ∈ range length, coef meas j) - 1] := by
  rw [chunk_plain (Histogram.lawful hl hcl hfit) rfl rfl rfl
    (fun meas si rc => [rc, meas.foldl (fun s b => s + b) (-si)])
    (fun meas jr N _ hN hm hj => Histogram.eval_eq hN hm hj) hm hj]
  simp only [foldl_add, hm]
  congr 3
  ring

/-! ### `MultihotCountVec` -/

theorem MultihotCountVec.eval_eq {length mw cl : ℕ} {meas jr : List F} {N : ℕ} (h1 : 1 ≤ mw)
    (hmw : mw < PyField.modulus F)
    (hN : N < PyField.modulus F) (hm : meas.length = length + Nat.size mw)
    (hj : jr.length = numCalls (length + Nat.size mw) cl) :
    (MultihotCountVec.circuit F length mw cl).eval meas jr N =
      (chunkLoop meas jr (N : F)⁻¹ cl (numCalls (length + Nat.size mw) cl)).bind fun rc =>
        .pure [rc, (meas.take length).foldl (fun s b => s + b) 0 -
          ∑ l ∈ range (Nat.size mw), (rcw mw l : F) * coef (meas.drop length) l] := by
  simp only [MultihotCountVec.circuit, Prog.bind_eq', Prog.pure_eq']
  rw [checkValidEval_ok hm hj, ofInt_nat hN, decodeRangeCheckedInt_eq h1 hmw _ (by simp [hm])]
  rfl

theorem MultihotCountVec.lawful {length mw cl : ℕ} (hl : 1 ≤ length) (hcl : 1 ≤ cl) (h1 : 1 ≤ mw)
    (hmw : mw < PyField.modulus F)
    (hfit : Spec.Fits (MultihotCountVec.circuit F length mw cl)) :
    (MultihotCountVec.circuit F length mw cl).Lawful := by
  refine chunk_lawful (n := length + Nat.size mw)
    (K := fun meas si rc => [rc, (meas.take length).foldl (fun s b => s + b) 0 -
          ∑ l ∈ range (Nat.size mw), (rcw mw l : F) * coef (meas.drop length) l]) hcl
    (by omega) rfl rfl rfl rfl
    hfit (by simp [MultihotCountVec.circuit]) (by intros; simp [MultihotCountVec.circuit])
    (fun meas jr N _ hN hm hj => MultihotCountVec.eval_eq h1 hmw hN hm hj) ?_
  intro N hN1 h2 ms meas rcs hs hm
  apply isSum_pair rfl
  have := foldl_add_sum (isSum_take hs length) (fun _ => 0)
  rw [sum_const_zero] at this
  rw [sum_sub_distrib, ← this, sum_comm]
  congr 1
  apply sum_congr rfl
  intro l _
  rw [(isSum_iff.1 (isSum_drop hs length)).2 l, mul_sum]

theorem MultihotCountVec.plain {length mw cl : ℕ} (hl : 1 ≤ length) (hcl : 1 ≤ cl) (h1 : 1 ≤ mw)
    (hmw : mw < PyField.modulus F)
    (hfit : Spec.Fits (MultihotCountVec.circuit F length mw cl)) {meas jr : List F}
    (hm : meas.length = length + Nat.size mw)
    (hj : jr.length = numCalls (length + Nat.size mw) cl) :
    (MultihotCountVec.circuit F length mw cl).evalPlain meas jr 1 =
      .ok [rangeSum cl (numCalls (length + Nat.size mw) cl) meas jr,
        (meas.take length).foldl (fun s b => s + b) 0 -
          ∑ l ∈ range (Nat.size mw), (rcw mw l : F) * coef (meas.drop length) l] :=
  chunk_plain (n := length + Nat.size mw) (MultihotCountVec.lawful hl hcl h1 hmw hfit) rfl rfl rfl
    (fun meas si rc => [rc, (meas.take length).foldl (fun s b => s + b) 0 -
          ∑ l ∈ range (Nat.size mw), (rcw mw l : F) * coef (meas.drop length) l])
    (fun meas jr N _ hN hm hj => MultihotCountVec.eval_eq h1 hmw hN hm hj) hm hj

/-! ### `SumVec` -/

theorem SumVec.eval_eq {length max cl : ℕ} {meas jr : List F} {N : ℕ}
    (hN : N < PyField.modulus F) (hm : meas.length = length * Nat.size max)
    (hj : jr.length = numCalls (length * Nat.size max) cl) :
    (SumVec.circuit F length max cl).eval meas jr N =
      (chunkLoop meas jr (N : F)⁻¹ cl (numCalls (length * Nat.size max) cl)).bind fun rc =>
        .pure [rc] := by
  simp only [SumVec.circuit, Prog.bind_eq', Prog.pure_eq']
  rw [checkValidEval_ok hm hj, ofInt_nat hN]
  rfl

theorem SumVec.lawful {length max cl : ℕ} (hl : 1 ≤ length) (hcl : 1 ≤ cl) (h1 : 1 ≤ max)
    (hfit : Spec.Fits (SumVec.circuit F length max cl)) :
    (SumVec.circuit F length max cl).Lawful := by
  refine chunk_lawful (n := length * Nat.size max)
    (K := fun meas si rc => [rc]) hcl
    (Nat.mul_pos hl (size_pos' h1)) rfl rfl rfl rfl
    hfit (by simp [SumVec.circuit]) (by intros; simp [SumVec.circuit])
    (fun meas jr N _ hN hm hj => SumVec.eval_eq hN hm hj) ?_
  intro N hN1 h2 ms meas rcs hs hm
  exact isSum_singleton rfl

theorem SumVec.plain {length max cl : ℕ} (hl : 1 ≤ length) (hcl : 1 ≤ cl) (h1 : 1 ≤ max)
    (hfit : Spec.Fits (SumVec.circuit F length max cl)) {meas jr : List F}
    (hm : meas.length = length * Nat.size max)
    (hj : jr.length = numCalls (length * Nat.size max) cl) :
    (SumVec.circuit F length max cl).evalPlain meas jr 1 =
      .ok [rangeSum cl (numCalls (length * Nat.size max) cl) meas jr] :=
  chunk_plain (n := length * Nat.size max) (SumVec.lawful hl hcl h1 hfit) rfl rfl rfl
    (fun meas si rc => [rc])
    (fun meas jr N _ hN hm hj => SumVec.eval_eq hN hm hj) hm hj

/-! ### `Sum` -/

theorem polyEval_deg {n : ℕ} {G : Gadget F} (h : PolyEval F [0, -1, 1] n = .ok G) :
    G.degree = 2 ∧ G.arity = 1 := by
  unfold PolyEval at h
  rw [show polyEvalStrip [0, -1, 1] [(0 : Int), -1, 1].length = .ok [0, -1, 1] from rfl] at h
  simp only [Except.ok_bind', Except.bind_eq_ok, raiseIf_eq_ok] at h
  obtain ⟨-, -, w, hw, n', hn', h⟩ := h
  cases h
  exact ⟨rfl, rfl⟩

/-- The gadget of `Sum`. -/
theorem sumGadget {n : ℕ} {G : Gadget F} (h : PolyEval F [0, -1, 1] n = .ok G) (hn : 1 ≤ n)
    (hcap : Nat.size n + 1 ≤ NttField.logOrder F) :
    G.Lawful (Nat.size n) ∧ ∀ x, G.eval [x] = .ok (x * (x - 1)) := by
  have hm := one_lt_modulus F
  obtain ⟨G', hG', -, -, hlaw, -, -, he⟩ := polyEval_lawful (F := F) [0, -1, 1] n (by
    intro c hc
    simp only [List.mem_cons, List.not_mem_nil, or_false] at hc
    rcases hc with rfl | rfl | rfl <;> simp <;> omega) ⟨1, le_rfl, -1, rfl, by omega⟩ (by
    intro i c hi hc
    have : i < 3 := by
      by_contra h
      rw [List.getElem?_eq_none (by simp; omega)] at hi; cases hi
    refine le_trans ?_ hcap
    rw [← size_mul_two (size_pos' hn)]
    apply Nat.size_le_size
    unfold gadgetPolyLen
    have := Nat.mul_le_mul_right (2 ^ Nat.size n - 1) (show i ≤ 2 by omega)
    omega)
  rw [h] at hG'
  cases hG'
  refine ⟨hlaw, fun x => ?_⟩
  rw [he]
  congr 1
  rw [poly_eval _ 3 (by simp)]
  simp [sum_range_succ, coef]
  ring

theorem Sum.eval_eq {max : ℕ} {G : Gadget F} {meas jr : List F} (N : ℕ)
    (hm : meas.length = Nat.size max) (hj : jr.length = 0) :
    (Sum.circuit F max G).eval meas jr N =
      Prog.forFold (List.range (Nat.size max)) ([] : List F) fun out i =>
        .call 0 [coef meas i] fun y => .pure (out ++ [y]) := by
  simp only [Sum.circuit, Prog.bind_eq', Prog.pure_eq']
  rw [checkValidEval_ok hm hj]
  simp only [Prog.ofRes, Prog.bind]
  have : ∀ (l : List F) (o : List F) (k : ℕ) (g : ℕ → F), (∀ i (h : i < l.length), l[i] = g (k + i)) →
      (Prog.forFold l o fun out b => Prog.call 0 [b] fun y => Prog.pure (out ++ [y])) =
      Prog.forFold (List.range' k l.length) o fun out i =>
        .call 0 [g i] fun y => .pure (out ++ [y]) := by
    intro l
    induction l with
    | nil => intros; rfl
    | cons b t ih =>
      intro o k g h
      simp only [List.length_cons, List.range'_succ, Prog.forFold, Prog.bind]
      have h0 := h 0 (by simp)
      simp only [List.getElem_cons_zero, add_zero] at h0
      rw [h0]
      congr 1
      funext y
      apply ih
      intro i hi
      have := h (i + 1) (by simpa using hi)
      rw [List.getElem_cons_succ] at this
      rw [this]; congr 1; omega
  rw [this meas [] 0 (coef meas) (fun i h => by rw [zero_add, coef_of_lt h]), hm,
    List.range_eq_range']

theorem Sum.lawful {max : ℕ} {G : Gadget F} (h1 : 1 ≤ max)
    (hG : PolyEval F [0, -1, 1] (Nat.size max) = .ok G) (hfit : Spec.Fits (Sum.circuit F max G)) :
    (Sum.circuit F max G).Lawful := by
  have hs := size_pos' h1
  obtain ⟨hd, ha⟩ := polyEval_deg hG
  have hcap := fits_cap1 hfit (g := G) (c := Nat.size max) rfl rfl
  rw [hd, size_mul_two (size_pos' hs)] at hcap
  obtain ⟨hlaw, he⟩ := sumGadget hG hs hcap
  refine lawful_single (G := G) (c := Nat.size max) rfl rfl hs (by omega) (by omega) hfit hlaw
    hs ?_ ?_
  · intro meas jr N hm hj _ _ ar har
    rw [Sum.eval_eq N hm hj]
    have := Prog.WF.forFold (n := 1) (ar := ar) (List.range (Nat.size max)) ([] : List F)
      (fun out i => .call 0 [coef meas i] fun y => .pure (out ++ [y])) (Pi.single 0 1)
      (fun i out => out.length = i) rfl (by
        intro i hi a ha'
        exact ⟨by omega, by simp [har, ha], 0, by simp, fun y => ⟨fun _ => rfl, by simp [ha']⟩⟩)
    rw [List.length_range] at this
    have hfun : (fun g => if g < 1 then Nat.size max else 0) = Nat.size max • Pi.single 0 1 := by
      funext g
      by_cases hg : g = 0
      · subst hg; simp
      · simp [hg]
    rw [hfun]
    exact this
  · intro N _ _ ms meas jr hsum hm hj
    rw [Sum.eval_eq 1 hm hj]
    simp only [Sum.eval_eq N ((hsum.1 _).trans hm) hj]
    apply Prog.Lock.forFold Spec.IsSum _ ([] : List F) (fun _ => ([] : List F))
    · exact isSum_nil
    · intro i hi as a ha
      refine ⟨_, _, fun _ => rfl, isSum_singleton ((isSum_iff.1 hsum).2 i), fun ys => ⟨_, fun _ => rfl, ?_⟩⟩
      exact IsSum.append ha (isSum_singleton rfl)

theorem Sum.plain {max : ℕ} {G : Gadget F} (h1 : 1 ≤ max)
    (hG : PolyEval F [0, -1, 1] (Nat.size max) = .ok G) (hfit : Spec.Fits (Sum.circuit F max G))
    {meas : List F} {N : ℕ} (hm : meas.length = Nat.size max)
    (hN : 1 ≤ N) (hN' : N < PyField.modulus F) :
    (Sum.circuit F max G).evalPlain meas [] N =
      .ok (tab (Nat.size max) fun i => coef meas i * (coef meas i - 1)) := by
  have hs := size_pos' h1
  obtain ⟨hd, ha⟩ := polyEval_deg hG
  have hcap := fits_cap1 hfit (g := G) (c := Nat.size max) rfl rfl
  rw [hd, size_mul_two (size_pos' hs)] at hcap
  obtain ⟨hlaw, he⟩ := sumGadget hG hs hcap
  apply (Sum.lawful h1 hG hfit).evalPlain_val hm rfl hN hN'
  rw [Sum.eval_eq N hm rfl]
  have := Prog.Val.forFold (ans := fun g _ inp => (Valid.gad (Sum.circuit F max G) g).val inp)
    (List.range (Nat.size max))
    (fun out i => .call 0 [coef meas i] fun y => .pure (out ++ [y]))
    (fun n => tab n fun i => coef meas i * (coef meas i - 1)) (by
      intro i hi log
      have hv : (Valid.gad (Sum.circuit F max G) 0).val [coef meas i] =
          coef meas i * (coef meas i - 1) := val_of_eval (he _)
      refine ⟨Function.update log 0 (log 0 ++ [[coef meas i]]), ?_⟩
      simp only [Prog.trace, List.getElem_range]
      rw [hv, tab_succ])
  simpa [tab] using this

end
end Vdaf
