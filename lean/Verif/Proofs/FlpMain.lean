import Verif.Proofs.Flp
import Verif.Proofs.Count
import Verif.Spec.Flp
import Mathlib.Algebra.Polynomial.Roots

/-! Completeness, linearity, soundness and zero knowledge of the FLP for lawful circuits. -/

set_option linter.unusedSectionVars false

namespace Vdaf
open Finset Polynomial

section
variable {F : Type} [NttField F] {Meas Agg : Type} {V : Valid F Meas Agg}

/-! ### `decide` -/

theorem tab_succ' {α : Type} (n : ℕ) (f : ℕ → α) : tab (n + 1) f = f 0 :: tab n fun i => f (i + 1) := by
  simp [tab, List.range_succ_eq_map, Function.comp_def]

theorem decideLoop_blocks (n : ℕ) (G : ℕ → Gadget F) (w : ℕ → ℕ → F) (y : ℕ → F)
    (hG : ∀ g < n, ∀ inp : List F, inp.length = (G g).arity → (G g).eval inp = .ok ((G g).val inp)) :
    decideLoop (tab n G) ((List.range n).flatMap fun g => tab (G g).arity (w g) ++ [y g]) =
      .ok (decide (∀ g < n, (G g).val (tab (G g).arity (w g)) = y g)) := by
  induction n generalizing G w y with
  | zero => simp [tab, decideLoop]
  | succ n ih =>
    rw [tab_succ', List.range_succ_eq_map, List.flatMap_cons, List.flatMap_map, decideLoop]
    simp only [List.append_assoc]
    rw [front_append' (by simp)]
    simp only [Except.ok_bind']
    rw [front_append' (by simp)]
    simp only [Except.ok_bind']
    rw [getI_of_lt (by simp)]
    simp only [Except.ok_bind']
    rw [hG 0 (by omega) _ (by simp)]
    simp only [Except.ok_bind', List.getElem_cons_zero]
    by_cases h0 : (G 0).val (tab (G 0).arity (w 0)) = y 0
    · rw [if_neg (by simpa using h0)]
      have := ih (fun g => G (g + 1)) (fun g => w (g + 1)) (fun g => y (g + 1))
        fun g hg => hG (g + 1) (by omega)
      refine (show _ = _ from this).trans ?_
      congr 1
      rw [decide_eq_decide]
      constructor
      · intro h g hg
        cases g with
        | zero => exact h0
        | succ g => exact h g (by omega)
      · intro h g hg; exact h (g + 1) (by omega)
    · rw [if_pos h0]
      simp only [Except.pure_eq']
      congr 1
      symm
      rw [decide_eq_false_iff_not]
      intro h; exact h0 (h 0 (by omega))

theorem decideLoop_total (gs : List (Gadget F))
    (hG : ∀ G ∈ gs, ∀ inp : List F, inp.length = G.arity → G.eval inp = .ok (G.val inp))
    (ver : List F) (hlen : ver.length = (gs.map fun G => G.arity + 1).sum) :
    ∃ b, decideLoop gs ver = .ok b := by
  induction gs generalizing ver with
  | nil =>
    simp only [List.map_nil, List.sum_nil] at hlen
    exact ⟨true, by simp [decideLoop, hlen]⟩
  | cons G gs ih =>
    simp only [List.map_cons, List.sum_cons] at hlen
    rw [decideLoop, front_of_le (by omega)]
    simp only [Except.ok_bind']
    rw [front_of_le (by simp; omega)]
    simp only [Except.ok_bind']
    rw [getI_of_lt (by simp; omega), hG G (by simp) _ (by simp; omega)]
    simp only [Except.ok_bind']
    split
    · exact ⟨_, rfl⟩
    · exact ih (fun G' h => hG G' (by simp [h])) _ (by simp only [List.length_drop]; omega)

namespace Valid

theorem Lawful.eval_eq (h : V.Lawful) {g : ℕ} (hg : g < V.num) (inp : List F)
    (hi : inp.length = V.ar g) : (V.gad g).eval inp = .ok ((V.gad g).val inp) :=
  (h.gadget g hg).eval_eq inp hi

theorem Lawful.decide_total (h : V.Lawful) (ver : List F) (hlen : ver.length = V.verifierLen) :
    ∃ b, V.decide ver = .ok b := by
  have hl : V.verifierLen = 1 + (V.gadgets.map fun G => G.arity + 1).sum := by
    unfold verifierLen
    have : ∀ (gs : List (Gadget F)) (a : ℕ),
        gs.foldl (fun length g => length + (g.arity + 1)) a =
          a + (gs.map fun G => G.arity + 1).sum := by
      intro gs
      induction gs with
      | nil => intro a; simp
      | cons G gs ih => intro a; simp only [List.foldl_cons, ih, List.map_cons, List.sum_cons]; omega
    exact this _ _
  unfold decide
  rw [pyAssert_of' hlen, front_of_le (by omega)]
  simp only [Except.ok_bind']
  rw [getI_of_lt (by simp; omega)]
  simp only [Except.ok_bind']
  split
  · exact ⟨_, rfl⟩
  · refine decideLoop_total _ ?_ _ (by simp only [List.length_drop]; omega)
    intro G hG inp hi
    obtain ⟨g, hg, rfl⟩ := List.getElem_of_mem hG
    have : V.gad g = V.gadgets[g] := by simp [gad, hg]
    rw [← this] at hi ⊢
    exact h.eval_eq hg inp hi

theorem flatMap_blocks_length (V : Valid F Meas Agg) (w : ℕ → ℕ → F) (y : ℕ → F) :
    ((List.range V.num).flatMap fun g => tab (V.ar g) (w g) ++ [y g]).length =
      ∑ g ∈ range V.num, (V.ar g + 1) := by
  apply length_flatMap_range
  intro g _; simp

theorem Lawful.decide_blocks (h : V.Lawful) (v : F) (w : ℕ → ℕ → F) (y : ℕ → F) :
    V.decide (v :: (List.range V.num).flatMap fun g => tab (V.ar g) (w g) ++ [y g]) =
      .ok (Decidable.decide (v = 0 ∧ ∀ g < V.num, (V.gad g).val (tab (V.ar g) (w g)) = y g)) := by
  unfold decide
  rw [pyAssert_of' (by
    rw [verifierLen_eq, List.length_cons, flatMap_blocks_length]; omega)]
  simp only [Except.ok_bind']
  rw [show ∀ l : List F, v :: l = [v] ++ l from fun _ => rfl, front_append' (by simp)]
  simp only [Except.ok_bind']
  rw [getI_of_lt (by simp)]
  simp only [Except.ok_bind', List.getElem_cons_zero]
  by_cases hv : v = 0
  · rw [if_neg (by simpa using hv), gadgets_eq]
    have := decideLoop_blocks V.num V.gad w y (fun g hg inp hi => h.eval_eq hg inp hi)
    refine (show _ = _ from this).trans ?_
    simp [hv]; rfl
  · rw [if_pos hv]; simp [hv]

/-! ### Completeness -/

theorem Lawful.ans_eq (h : V.Lawful) {sd : ℕ → ℕ → F} {log : Prog.Log F} {π : List F} {g k : ℕ}
    {inp : List F} (hg : g < V.num) (hlen : (log g).length = V.calls g)
    (hmem : ∀ inp ∈ log g, inp.length = V.ar g)
    (he : ∀ x, (V.gad g).eval (tab (V.ar g) fun j => (V.Wp sd log g j).eval x) =
          .ok ((V.Pq π g).eval x)) (hk : (log g)[k]? = some inp) :
    (V.gad g).val inp = V.ansq π g k := by
  have hk' : k < (log g).length := by
    by_contra hc
    rw [List.getElem?_eq_none (by omega)] at hk; cases hk
  have hlt := V.calls_lt g
  have hi : inp.length = V.ar g := hmem inp (List.mem_of_getElem? hk)
  have := he (nthRoot F (V.L g) ^ (k + 1))
  have htab : (tab (V.ar g) fun j => (V.Wp sd log g j).eval (nthRoot F (V.L g) ^ (k + 1))) = inp := by
    apply List.ext_getElem (by simp [hi])
    intro j h1 h2
    rw [tab_getElem]
    unfold Wp
    rw [wireP_eval (h.L_le hg) (by omega)]
    simp only [wval, Nat.add_one_ne_zero, if_false, Nat.add_sub_cancel, Prog.wv,
      List.getD_eq_getElem?_getD, hk, Option.getD_some]
    exact coef_of_lt h2
  rw [htab, h.eval_eq hg inp hi] at this
  unfold ansq
  simpa using this

/-- `query` and `decide` on an honest proof. -/
theorem Lawful.honest (h : V.Lawful) {meas jr out : List F}
    (hmeas : meas.length = V.measLen)
    (hjr : jr.length = V.jointRandLen) (hout : V.evalPlain meas jr 1 = .ok out) :
    ∃ log : Prog.Log F, (∀ pr, pr.length = V.proveRandLen → ∃ π, V.prove meas pr jr = .ok π ∧ π.length = V.off V.num ∧
      ∀ qr : List F, qr.length = V.queryRandLen →
        V.query meas π qr jr 1 =
        if ∃ g < V.num, coef qr (toff V.evalOutputLen + g) ^ 2 ^ V.L g = 1
          then .error rootOfUnityErr
          else .ok (reduceOut V.evalOutputLen out qr :: (List.range V.num).flatMap
            fun g => tab (V.ar g) (fun j => (V.Wp (V.sdp pr) log g j).eval
                (coef qr (toff V.evalOutputLen + g))) ++
              [(V.gad g).val (tab (V.ar g) (fun j => (V.Wp (V.sdp pr) log g j).eval
                (coef qr (toff V.evalOutputLen + g))))])) := by
  obtain ⟨out0, log0, htr0, hol0, hlen0, hmem0, hplain⟩ :=
    h.evalPlain_eq hmeas hjr le_rfl (one_lt_modulus F)
  rw [hplain] at hout
  obtain rfl : out0 = out := by simpa using hout
  refine ⟨log0, fun pr hpr => ?_⟩
  obtain ⟨out1, log1, π, htr, hol, hlen, hmem, hprove, hπ, hgad⟩ := h.prove_eq hmeas hpr hjr
  rw [htr0] at htr
  obtain ⟨rfl, rfl⟩ : out0 = out1 ∧ log0 = log1 := by simpa using htr
  refine ⟨π, hprove, hπ, fun qr hqr => ?_⟩
  obtain ⟨out2, log2, htr2, -, -, -, hquery⟩ :=
    h.query_eq hmeas hπ hqr hjr le_rfl (one_lt_modulus F)
  have := Prog.trace_congr (ans' := fun g k _ => V.ansq π g k)
    (h.wf meas jr 1 hmeas hjr le_rfl (one_lt_modulus F)) htr0 (by
      intro g k inp hg hk
      exact h.ans_eq hg (hlen0 g hg) (hmem0 g) (hgad g hg).2 hk)
  rw [htr2] at this
  obtain ⟨rfl, rfl⟩ : out2 = out0 ∧ log2 = log0 := by simpa using this
  rw [hquery]
  split
  · rfl
  · refine congrArg Except.ok (congrArg (List.cons _) (List.flatMap_congr ?_))
    intro g hg
    have hg : g < V.num := by simpa using hg
    unfold vpart
    have ht : ∀ x, (tab (V.ar g) fun j => (wireP (V.L g) (wval (V.sdq π g) (log2 g) j)).eval x) =
        tab (V.ar g) fun j => (V.Wp (V.sdp pr) log2 g j).eval x := by
      intro x
      apply tab_congr
      intro j hj
      unfold Wp
      congr 2
      funext i
      simp only [wval]
      rw [(hgad g hg).1 j hj]
    rw [ht]
    congr 2
    have := (hgad g hg).2 (coef qr (toff V.evalOutputLen + g))
    rw [h.eval_eq hg _ (by simp)] at this
    symm
    simpa using this

/-! ### Linearity -/

theorem Pq_sum {ι : Type} [Fintype ι] (V : Valid F Meas Agg) {πs : ι → List F} {π : List F}
    (h : Spec.IsSum πs π) (g : ℕ) : V.Pq π g = ∑ i, V.Pq (πs i) g := by
  unfold Pq
  apply gadP_sum
  intro i _
  exact (isSum_iff.1 h).2 _

theorem Lawful.query_sum (h : V.Lawful) {N : ℕ} (hN : 1 ≤ N) (hN' : N < PyField.modulus F)
    {ms πs : Fin N → List F} {meas π qr jr : List F} (hms : Spec.IsSum ms meas)
    (hπs : Spec.IsSum πs π)
    (hmeas : meas.length = V.measLen) (hπ : π.length = V.off V.num)
    (hqr : qr.length = V.queryRandLen) (hjr : jr.length = V.jointRandLen) :
    (V.query meas π qr jr 1 = .error rootOfUnityErr ∧
      ∀ i, V.query (ms i) (πs i) qr jr N = .error rootOfUnityErr) ∨
    ∃ v vs, V.query meas π qr jr 1 = .ok v ∧ (∀ i, V.query (ms i) (πs i) qr jr N = .ok (vs i)) ∧
      Spec.IsSum vs v := by
  obtain ⟨out, log, htr, hol, -, -, hq⟩ :=
    h.query_eq hmeas hπ hqr hjr le_rfl (one_lt_modulus F)
  have hi : ∀ i, ∃ out log, (V.eval (ms i) jr N).trace (fun g k _ => V.ansq (πs i) g k)
      (fun _ => []) = .ok (out, log) ∧ V.query (ms i) (πs i) qr jr N =
        if ∃ g < V.num, coef qr (toff V.evalOutputLen + g) ^ 2 ^ V.L g = 1
          then .error rootOfUnityErr
          else .ok (reduceOut V.evalOutputLen out qr :: (List.range V.num).flatMap
            (V.vpart (πs i) log fun g => coef qr (toff V.evalOutputLen + g))) := by
    intro i
    obtain ⟨out, log, h1, -, -, -, h2⟩ := h.query_eq (meas := ms i) (π := πs i)
      (by rw [hms.1 i, hmeas]) (by rw [hπs.1 i, hπ]) hqr hjr hN hN'
    exact ⟨out, log, h1, h2⟩
  choose outs logs htrs hqs using hi
  obtain ⟨out', outs', log', logs', ha, hb, hR, hL⟩ := Prog.trace_lock
    (h.affine N hN hN' ms meas jr hms hmeas hjr) (log := fun _ => []) (logs := fun _ _ => [])
    ⟨fun _ _ => rfl, fun g k j => by simp [Prog.wv, coef_nil]⟩
    (ans := V.ansq π) (anss := fun i => V.ansq (πs i)) (by
      intro g k
      unfold ansq
      rw [V.Pq_sum hπs g, eval_finsetSum])
  rw [htr] at ha
  obtain ⟨rfl, rfl⟩ : out = out' ∧ log = log' := by simpa using ha
  have hb' : ∀ i, outs i = outs' i ∧ logs i = logs' i := by
    intro i
    have := hb i
    rw [htrs i] at this
    simpa using this
  obtain rfl : outs = outs' := funext fun i => (hb' i).1
  obtain rfl : logs = logs' := funext fun i => (hb' i).2
  by_cases hbad : ∃ g < V.num, coef qr (toff V.evalOutputLen + g) ^ 2 ^ V.L g = 1
  · left
    simp only [if_pos hbad] at hq hqs
    exact ⟨hq, hqs⟩
  · right
    simp only [if_neg hbad] at hq hqs
    refine ⟨_, _, hq, hqs, ?_⟩
    have hc := (isSum_iff.1 hR).2
    refine IsSum.append (as := fun i => [reduceOut V.evalOutputLen (outs i) qr])
      (a := [reduceOut V.evalOutputLen out qr]) (isSum_singleton ?_) (isSum_flatMap ?_)
    · unfold reduceOut
      split
      · rw [Finset.sum_comm]
        apply sum_congr rfl
        intro j _
        rw [hc j, mul_sum]
      · exact hc 0
    · intro g hg
      unfold vpart
      refine IsSum.append (isSum_tab ?_) (isSum_singleton ?_)
      · intro j _
        rw [← eval_finsetSum]
        congr 1
        apply wireP_sum
        intro k _
        simp only [wval]
        split
        · exact (isSum_iff.1 hπs).2 _
        · exact hL.2 _ _ _
      · rw [V.Pq_sum hπs g, eval_finsetSum]

/-! ### Soundness -/

theorem coef_ofFn {n : ℕ} (f : Fin n → F) (i : Fin n) : coef (List.ofFn f) i = f i := by
  rw [coef_of_lt (by simp)]; simp

theorem queryRandLen_eq (V : Valid F Meas Agg) :
    V.queryRandLen = V.num + toff V.evalOutputLen := rfl

theorem Lawful.sound (h : V.Lawful) {meas jr out π : List F} (hmeas : meas.length = V.measLen)
    (hjr : jr.length = V.jointRandLen) (hout : V.evalPlain meas jr 1 = .ok out)
    (hne : ∃ x ∈ out, x ≠ 0) (hπ : π.length = V.off V.num) (B : ℕ) (hB : 1 ≤ B)
    (hB' : ∀ g < V.num, (V.gad g).degree * (2 ^ V.L g - 1) ≤ B) :
    Set.ncard {qr : Fin V.queryRandLen → F |
      ∃ v, V.query meas π (List.ofFn qr) jr 1 = .ok v ∧ V.decide v = .ok true} ≤
      B * Fintype.card F ^ (V.queryRandLen - 1) := by
  obtain ⟨out0, log0, htr0, hol0, hlen0, hmem0, hplain⟩ :=
    h.evalPlain_eq hmeas hjr le_rfl (one_lt_modulus F)
  rw [hplain] at hout
  obtain rfl : out0 = out := by simpa using hout
  obtain ⟨out, log, htr, hol, hlen, hmem, -⟩ := h.query_eq (qr := List.replicate V.queryRandLen 0)
    hmeas hπ (by simp) hjr le_rfl (one_lt_modulus F)
  -- what acceptance means
  have hacc : ∀ qr : Fin V.queryRandLen → F,
      (∃ v, V.query meas π (List.ofFn qr) jr 1 = .ok v ∧ V.decide v = .ok true) →
      reduceOut V.evalOutputLen out (List.ofFn qr) = 0 ∧ ∀ g < V.num,
        (V.gad g).val (tab (V.ar g) fun j => (V.Wp (V.sdq π) log g j).eval
          (coef (List.ofFn qr) (toff V.evalOutputLen + g))) =
        (V.Pq π g).eval (coef (List.ofFn qr) (toff V.evalOutputLen + g)) := by
    rintro qr ⟨v, hq, hd⟩
    obtain ⟨out2, log2, htr2, -, -, -, hquery⟩ :=
      h.query_eq (qr := List.ofFn qr) hmeas hπ (by simp) hjr le_rfl (one_lt_modulus F)
    rw [htr] at htr2
    obtain ⟨rfl, rfl⟩ : out = out2 ∧ log = log2 := by simpa using htr2
    rw [hquery] at hq
    split at hq
    · cases hq
    · simp only [Except.ok.injEq] at hq
      subst hq
      have := h.decide_blocks (reduceOut V.evalOutputLen out (List.ofFn qr))
        (fun g j => (V.Wp (V.sdq π) log g j).eval
          (coef (List.ofFn qr) (toff V.evalOutputLen + g)))
        (fun g => (V.Pq π g).eval (coef (List.ofFn qr) (toff V.evalOutputLen + g)))
      have hd' := hd
      rw [show (List.range V.num).flatMap
            (V.vpart π log fun g => coef (List.ofFn qr) (toff V.evalOutputLen + g)) =
          (List.range V.num).flatMap fun g => tab (V.ar g) (fun j => (V.Wp (V.sdq π) log g j).eval
          (coef (List.ofFn qr) (toff V.evalOutputLen + g))) ++
          [(V.Pq π g).eval (coef (List.ofFn qr) (toff V.evalOutputLen + g))] from rfl, this] at hd'
      simpa using hd'
  have hQ : ∀ g, ∃ Q : F[X], g < V.num → Q.degree < ((V.m g : ℕ) : WithBot ℕ) ∧
      ∀ x, (V.gad g).eval (tab (V.ar g) fun j => (V.Wp (V.sdq π) log g j).eval x) =
        .ok (Q.eval x) := by
    intro g
    by_cases hg : g < V.num
    · obtain ⟨Q, h1, -, h3⟩ := h.gadget_tab hg (V.Wp (V.sdq π) log g)
        (fun j _ => wireP_degree (h.L_le hg) _)
      exact ⟨Q, fun _ => ⟨h1, h3⟩⟩
    · exact ⟨0, fun h => absurd h hg⟩
  choose Q hQ using hQ
  have hql := queryRandLen_eq V
  by_cases hall : ∀ g < V.num, Q g = V.Pq π g
  · -- the proof encodes the true gadget polynomials, so the output is the true one
    have := Prog.trace_congr (ans' := fun g _ inp => (V.gad g).val inp)
      (h.wf meas jr 1 hmeas hjr le_rfl (one_lt_modulus F)) htr (by
        intro g k inp hg hk
        exact (h.ans_eq (sd := V.sdq π) hg (hlen g hg) (hmem g)
          (by rw [← hall g hg]; exact (hQ g hg).2) hk).symm)
    rw [htr0] at this
    obtain ⟨rfl, rfl⟩ : out0 = out ∧ log0 = log := by simpa using this
    obtain ⟨x, hx, hx0⟩ := hne
    obtain ⟨j, hj, rfl⟩ := List.getElem_of_mem hx
    rw [← coef_of_lt hj] at hx0
    by_cases he : 1 < V.evalOutputLen
    · have hto : toff V.evalOutputLen = V.evalOutputLen := if_pos he
      refine ncard_le_of_fibre _ ⟨j, by omega⟩ B fun f => ?_
      refine ⟨{-(∑ k ∈ (range V.evalOutputLen).erase j, coef (List.ofFn f) k * coef out0 k) *
        (coef out0 j)⁻¹}, by simpa using hB, fun x hx => ?_⟩
      have h0 := (hacc _ hx).1
      rw [reduceOut, if_pos he, ← Finset.add_sum_erase _ _ (show j ∈ range V.evalOutputLen by
        simp; omega)] at h0
      have h1 : coef (List.ofFn (Function.update f ⟨j, by omega⟩ x)) j = x := by
        have := coef_ofFn (Function.update f ⟨j, by omega⟩ x) ⟨j, by omega⟩
        simpa using this
      have h2 : ∑ k ∈ (range V.evalOutputLen).erase j,
          coef (List.ofFn (Function.update f ⟨j, by omega⟩ x)) k * coef out0 k =
          ∑ k ∈ (range V.evalOutputLen).erase j, coef (List.ofFn f) k * coef out0 k := by
        apply sum_congr rfl
        intro k hk
        simp only [mem_erase, mem_range] at hk
        have hkl : k < V.queryRandLen := by omega
        have e1 := coef_ofFn (Function.update f ⟨j, by omega⟩ x) ⟨k, hkl⟩
        have e2 := coef_ofFn f ⟨k, hkl⟩
        simp only at e1 e2
        rw [e1, e2, Function.update_of_ne]
        simpa using hk.1
      rw [h1, h2] at h0
      rw [mem_singleton]
      field_simp
      linear_combination h0
    · have he1 : V.evalOutputLen = 1 := by have := h.out_pos; omega
      have : {qr : Fin V.queryRandLen → F |
          ∃ v, V.query meas π (List.ofFn qr) jr 1 = .ok v ∧ V.decide v = .ok true} = ∅ := by
        ext qr
        simp only [Set.mem_ofPred_eq, Set.mem_empty_iff_false, iff_false]
        intro hq
        have h0 := (hacc _ hq).1
        rw [reduceOut, if_neg he] at h0
        obtain rfl : j = 0 := by omega
        exact hx0 h0
      rw [this]; simp
  · push Not at hall
    obtain ⟨g, hg, hne⟩ := hall
    have hlt : toff V.evalOutputLen + g < V.queryRandLen := by omega
    refine ncard_le_of_fibre _ ⟨toff V.evalOutputLen + g, hlt⟩ B fun f => ?_
    refine ⟨(Q g - V.Pq π g).roots.toFinset, ?_, fun x hx => ?_⟩
    · refine (Multiset.toFinset_card_le _).trans ((card_roots' _).trans (le_trans ?_ (hB' g hg)))
      have hd : (Q g - V.Pq π g).degree < ((V.m g : ℕ) : WithBot ℕ) :=
        lt_of_le_of_lt (degree_sub_le _ _) (max_lt (hQ g hg).1
          (gadP_degree (h.cap g hg) (V.m_le g) _))
      have := (natDegree_lt_iff_degree_lt (sub_ne_zero.2 hne)).2 hd
      simp only [m, gadgetPolyLen] at this
      omega
    · have h0 := (hacc _ hx).2 g hg
      have h1 : coef (List.ofFn (Function.update f ⟨_, hlt⟩ x)) (toff V.evalOutputLen + g) = x := by
        have := coef_ofFn (Function.update f ⟨_, hlt⟩ x) ⟨_, hlt⟩
        simpa using this
      rw [h1] at h0
      have h2 := (hQ g hg).2 x
      rw [h.eval_eq hg _ (by simp)] at h2
      simp only [Except.ok.injEq] at h2
      rw [h0] at h2
      simp only [Multiset.mem_toFinset]
      rw [mem_roots (sub_ne_zero.2 hne)]
      simp [h2]

/-! ### Zero knowledge -/

/-- The value at a point that is not a root of unity of the wire polynomial is an affine
function of the wire seed with non-zero slope. -/
theorem wireP_seed {L : ℕ} (hL : L ≤ NttField.logOrder F) {t : F} (ht : t ^ 2 ^ L ≠ 1)
    (inps : List (List F)) (j : ℕ) :
    ∃ a b : F, a ≠ 0 ∧ ∀ sd : ℕ → F, (wireP L (wval sd inps j)).eval t = a * sd j + b := by
  classical
  have hnode : ∀ i ∈ range (2 ^ L), t ≠ nthRoot F L ^ i := by
    rintro i - rfl
    apply ht
    rw [← pow_mul, mul_comm, pow_mul, nthRoot_pow_eq_one hL, one_pow]
  have h0 : 0 ∈ range (2 ^ L) := by simp
  refine ⟨(Lagrange.basis (range (2 ^ L)) (fun i => nthRoot F L ^ i) 0).eval t,
    ∑ i ∈ (range (2 ^ L)).erase 0, (if i = 0 then 0 else Prog.wv inps (i - 1) j) *
      (Lagrange.basis (range (2 ^ L)) (fun i => nthRoot F L ^ i) i).eval t, ?_, fun sd => ?_⟩
  · rw [Lagrange.eval_basis_not_at_node h0 (hnode 0 h0)]
    refine mul_ne_zero (Lagrange.eval_nodal_not_at_node hnode) (mul_ne_zero ?_ ?_)
    · exact Lagrange.nodalWeight_ne_zero (root_injOn hL le_rfl) h0
    · exact inv_ne_zero (sub_ne_zero.2 (hnode 0 h0))
  · unfold wireP
    rw [Lagrange.interpolate_apply, eval_finsetSum, ← Finset.add_sum_erase _ _ h0]
    congr 1
    · simp [wval]; ring
    · apply sum_congr rfl
      intro i hi
      simp only [mem_erase] at hi
      simp [wval, hi.1]

theorem simulate_tab (n : ℕ) (G : ℕ → Gadget F) (u : List F)
    (hu : (∑ g ∈ range n, (G g).arity) ≤ u.length)
    (hG : ∀ g < n, ∀ inp : List F, inp.length = (G g).arity → (G g).eval inp = .ok ((G g).val inp)) :
    Spec.simulate (tab n G) u = .ok ((List.range n).flatMap fun g =>
      tab (G g).arity (fun j => coef u (∑ i ∈ range g, (G i).arity + j)) ++
        [(G g).val (tab (G g).arity (fun j => coef u (∑ i ∈ range g, (G i).arity + j)))]) := by
  induction n generalizing G u with
  | zero => simp [tab, Spec.simulate]
  | succ n ih =>
    rw [tab_succ', Spec.simulate]
    rw [Finset.sum_range_succ'] at hu
    have ht : u.take (G 0).arity = tab (G 0).arity fun j => coef u j := by
      apply List.ext_getElem (by simp; omega)
      intro j h1 h2
      simp only [List.length_take] at h1
      rw [tab_getElem, coef_of_lt (by omega), List.getElem_take]
    rw [ht, hG 0 (by omega) _ (by simp), ih (fun g => G (g + 1)) _ (by simp; omega)
      fun g hg => hG (g + 1) (by omega)]
    simp only
    rw [List.range_succ_eq_map, List.flatMap_cons, List.flatMap_map]
    simp only [Finset.range_zero, Finset.sum_empty, zero_add]
    have : ∀ g j, coef (u.drop (G 0).arity) (∑ i ∈ range g, (G (i + 1)).arity + j) =
        coef u (∑ i ∈ range (g + 1), (G i).arity + j) := by
      intro g j
      rw [Finset.sum_range_succ']
      unfold coef
      simp only [List.getD_eq_getElem?_getD, List.getElem?_drop]
      congr 2; omega
    simp only [this]

theorem Lawful.badTestPoint_iff (h : V.Lawful) {qr : List F} (hqr : qr.length = V.queryRandLen) :
    Spec.BadTestPoint V qr ↔
      ∃ g < V.num, coef qr (toff V.evalOutputLen + g) ^ 2 ^ V.L g = 1 := by
  have hql := queryRandLen_eq V
  have hn : V.queryRandLen - V.gadgets.length = toff V.evalOutputLen := by
    rw [hql]; simp [num]
  unfold Spec.BadTestPoint
  rw [hn]
  constructor
  · rintro ⟨i, c, p, t, hc, hp, ht, htp⟩
    have hi : i < V.num := by
      have := (List.getElem?_eq_some_iff.1 hc).1
      rw [h.len] at this; exact this
    have hci : V.calls i = c := by simp [calls, hc]
    rw [← hci, wirePolyLen_eq] at hp
    obtain rfl : 2 ^ V.L i = p := by simpa using hp
    refine ⟨i, hi, ?_⟩
    rw [List.getElem?_drop] at ht
    rw [show coef qr (toff V.evalOutputLen + i) = t by simp [coef, ht]]
    exact htp
  · rintro ⟨g, hg, ht⟩
    refine ⟨g, V.calls g, 2 ^ V.L g, coef qr (toff V.evalOutputLen + g), ?_, wirePolyLen_eq V g, ?_, ht⟩
    · have : g < V.gadgetCalls.length := by rw [h.len]; exact hg
      simp [calls, this]
    · rw [List.getElem?_drop]
      have : toff V.evalOutputLen + g < qr.length := by omega
      simp [coef, this]

theorem reduceOut_zero {e : ℕ} {out qr : List F} (h : ∀ x ∈ out, x = 0) : reduceOut e out qr = 0 := by
  have hc : ∀ j, coef out j = 0 := by
    intro j
    by_cases hj : j < out.length
    · rw [coef_of_lt hj]; exact h _ (List.getElem_mem _)
    · exact coef_of_le (by omega)
  unfold reduceOut
  simp [hc]

theorem Lawful.zk (h : V.Lawful) {meas jr out qr : List F} (hmeas : meas.length = V.measLen)
    (hjr : jr.length = V.jointRandLen) (hout : V.evalPlain meas jr 1 = .ok out)
    (hz : ∀ x ∈ out, x = 0) (hqr : qr.length = V.queryRandLen)
    (hgood : ¬ Spec.BadTestPoint V qr) :
    ∃ f : (Fin V.proveRandLen → F) ≃ (Fin V.proveRandLen → F), ∀ pr,
      ∃ π s, V.prove meas (List.ofFn pr) jr = .ok π ∧
        Spec.simulate V.gadgets (List.ofFn (f pr)) = .ok s ∧
        V.query meas π qr jr 1 = .ok (0 :: s) := by
  obtain ⟨log, hlog⟩ := h.honest hmeas hjr hout
  rw [h.badTestPoint_iff hqr] at hgood
  set t : ℕ → F := fun g => coef qr (toff V.evalOutputLen + g) with ht
  have hab : ∀ g j, ∃ a b : F, a ≠ 0 ∧ (g < V.num → ∀ sd : ℕ → F,
      (wireP (V.L g) (wval sd (log g) j)).eval (t g) = a * sd j + b) := by
    intro g j
    by_cases hg : g < V.num
    · obtain ⟨a, b, h1, h2⟩ := wireP_seed (h.L_le hg) (t := t g)
        (fun hc => hgood ⟨g, hg, hc⟩) (log g) j
      exact ⟨a, b, h1, fun _ => h2⟩
    · exact ⟨1, 0, one_ne_zero, fun hc => absurd hc hg⟩
  choose a b ha hw using hab
  set A := (List.range V.num).flatMap fun g => tab (V.ar g) (a g) with hA
  set Bl := (List.range V.num).flatMap fun g => tab (V.ar g) (b g) with hBl
  have hAc : ∀ g < V.num, ∀ j < V.ar g, coef A (V.poff g + j) = a g j := by
    intro g hg j hj
    have := coef_flatMap V.num (fun g => tab (V.ar g) (a g)) V.ar (by simp) g j hg hj
    rw [coef_tab, if_pos hj] at this
    exact this
  have hBc : ∀ g < V.num, ∀ j < V.ar g, coef Bl (V.poff g + j) = b g j := by
    intro g hg j hj
    have := coef_flatMap V.num (fun g => tab (V.ar g) (b g)) V.ar (by simp) g j hg hj
    rw [coef_tab, if_pos hj] at this
    exact this
  have hAlen : A.length = V.poff V.num := length_flatMap_range _ _ V.ar (by simp)
  have hA0 : ∀ k : Fin V.proveRandLen, coef A k ≠ 0 := by
    intro k
    have hk : (k : ℕ) < A.length := by rw [hAlen, ← proveRandLen_eq]; exact k.2
    rw [coef_of_lt hk]
    have := List.getElem_mem hk
    obtain ⟨g, -, hg⟩ := List.mem_flatMap.1 this
    simp only [tab, List.mem_map] at hg
    obtain ⟨j, -, hj⟩ := hg
    rw [← hj]; exact ha g j
  obtain ⟨f, hf⟩ : ∃ f : (Fin V.proveRandLen → F) ≃ (Fin V.proveRandLen → F),
      ∀ pr k, f pr k = coef A k * pr k + coef Bl k :=
    ⟨Equiv.piCongrRight fun k =>
      { toFun := fun x => coef A k * x + coef Bl k
        invFun := fun y => (coef A k)⁻¹ * (y - coef Bl k)
        left_inv := fun x => by have := hA0 k; field_simp; ring
        right_inv := fun y => by have := hA0 k; field_simp; ring }, fun _ _ => rfl⟩
  refine ⟨f, fun pr => ?_⟩
  obtain ⟨π, hπ, -, hq⟩ := hlog (List.ofFn pr) (by simp)
  have hq' := hq qr hqr
  rw [if_neg hgood, reduceOut_zero hz] at hq'
  refine ⟨π, _, hπ, ?_, hq'⟩
  rw [gadgets_eq, simulate_tab V.num V.gad _ ?_ fun g hg inp hi => h.eval_eq hg inp hi]
  · refine congrArg Except.ok (List.flatMap_congr ?_)
    intro g hg
    have hg : g < V.num := by simpa using hg
    have key : (tab (V.gad g).arity fun j => coef (List.ofFn (f pr))
          (∑ i ∈ range g, (V.gad i).arity + j)) =
        tab (V.ar g) fun j => (V.Wp (V.sdp (List.ofFn pr)) log g j).eval (t g) := by
      apply tab_congr
      intro j hj
      have hlt : V.poff g + j < V.proveRandLen := by
        rw [proveRandLen_eq]
        have := V.poff_mono (show g + 1 ≤ V.num from hg)
        rw [poff_succ] at this
        have : j < V.ar g := hj
        omega
      unfold Wp
      rw [hw g j hg]
      have e1 := coef_ofFn (f pr) ⟨V.poff g + j, hlt⟩
      have e2 := coef_ofFn pr ⟨V.poff g + j, hlt⟩
      refine e1.trans ?_
      rw [hf, hAc g hg j hj, hBc g hg j hj]
      unfold sdp
      rw [← e2]
    rw [key]
  · simp only [List.length_ofFn]
    exact (proveRandLen_eq V).ge

end Valid
end
end Vdaf
