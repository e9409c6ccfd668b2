import Verif.Proofs.Encode
import Verif.Proofs.Sharing
import Verif.Proofs.FlpMain

/-! Consequences of the FLP lemmas used by the property theorems. -/

set_option linter.unusedSectionVars false

namespace Vdaf
open Finset Polynomial

section
variable {F : Type} [NttField F]

theorem wirePolyLen_ok {c p : ℕ} : wirePolyLen c = .ok p ↔ p = 2 ^ Nat.size c := by
  unfold wirePolyLen
  rw [nextPowerOf2_of_pos (by omega)]
  simp [eq_comm]

/-! ### Gadgets -/

theorem cap_size {d L : ℕ} (h : gadgetPolyLen d (2 ^ L) ≤ NttField.genOrder F) :
    Nat.size (gadgetPolyLen d (2 ^ L) - 1) ≤ NttField.logOrder F := by
  rw [NttField.genOrder_eq] at h
  rw [Nat.size_le]
  have h0 : 0 < gadgetPolyLen d (2 ^ L) := by simp [gadgetPolyLen]
  omega

theorem polyEval_degree {p : List Int} {n : ℕ} {G : Gadget F} (hne : ∃ c ∈ p, c ≠ 0)
    (h : PolyEval F p n = .ok G) :
    ∃ hk : G.degree < p.length, p[G.degree] ≠ 0 ∧ ∀ j (h : j < p.length), G.degree < j → p[j] = 0 := by
  obtain ⟨k, hk, hstrip, hk0, hkz⟩ := polyEvalStrip_eq p p.length le_rfl
    (fun j h h' => by omega) hne
  unfold PolyEval at h
  rw [hstrip] at h
  simp only [Except.ok_bind', Except.bind_eq_ok, raiseIf_eq_ok] at h
  obtain ⟨-, -, w, hw, n', hn', h⟩ := h
  have : G.degree = k := by
    cases h
    simp only [List.length_take]
    omega
  subst this
  exact ⟨hk, hk0, hkz⟩

theorem gadgetFor_lawful {calls : ℕ} (hc : 1 ≤ calls) {G : Gadget F}
    (hG : Spec.GadgetFor F calls G)
    (hcap : gadgetPolyLen G.degree (2 ^ Nat.size calls) ≤ NttField.genOrder F) :
    G.Lawful (Nat.size calls) ∧ 1 ≤ G.arity ∧ 1 ≤ G.degree := by
  induction hG with
  | mul =>
    refine ⟨mul_lawful (size_pos' hc) ?_, by simp [Mul], by simp [Mul]⟩
    have := cap_size hcap
    rwa [show (Mul F).degree = 2 from rfl, size_mul_two (size_pos' hc)] at this
  | @polyEval p G hp hne h =>
    obtain ⟨i, c, hi, hic, hc0⟩ := hne
    obtain ⟨hk, hk0, hkz⟩ := polyEval_degree ⟨c, List.mem_of_getElem? hic, hc0⟩ h
    obtain ⟨G', h1, h2, h3, h4, -⟩ := polyEval_lawful (F := F) p calls hp ⟨i, hi, c, hic, hc0⟩ (by
      intro j d hj hd
      refine le_trans ?_ (cap_size hcap)
      apply Nat.size_le_size
      have : j ≤ G.degree := by
        by_contra hlt
        obtain ⟨hjl, he⟩ := List.getElem?_eq_some_iff.1 hj
        exact hd (by rw [← he]; exact hkz j hjl (by omega))
      unfold gadgetPolyLen
      have := Nat.mul_le_mul_right (2 ^ Nat.size calls - 1) this
      omega)
    rw [h] at h1
    obtain rfl : G = G' := by simpa using h1
    exact ⟨h4, by omega, h3⟩
  | @parallelSum g count hg hcnt ih =>
    obtain ⟨h1, h2, h3⟩ := ih hcap
    exact ⟨parallelSum_lawful h1 hcnt h2, Nat.mul_pos h2 hcnt, h3⟩

theorem exists_evals_list {L : ℕ} (hL : L ≤ NttField.logOrder F) (ws : List (List F))
    (h : ∀ w ∈ ws, w.length = 2 ^ L) :
    ∃ Ws : List F[X], (∀ W ∈ Ws, W.degree < ((2 ^ L : ℕ) : WithBot ℕ)) ∧
      ws = Ws.map fun W => Spec.evals W (nthRoot F L) (2 ^ L) := by
  induction ws with
  | nil => exact ⟨[], by simp⟩
  | cons w ws ih =>
    obtain ⟨Ws, h1, h2⟩ := ih fun w' hw' => h w' (by simp [hw'])
    obtain ⟨P, hP, rfl⟩ := exists_evals hL w (h w (by simp))
    refine ⟨P :: Ws, ?_, by simp [← h2]⟩
    intro W hW
    rcases List.mem_cons.1 hW with rfl | hW
    · exact hP
    · exact h1 W hW

theorem size_poly_le {d L : ℕ} (hd : 1 ≤ d) : L ≤ Nat.size (gadgetPolyLen d (2 ^ L) - 1) := by
  by_contra hlt
  have h1 : Nat.size (gadgetPolyLen d (2 ^ L) - 1) ≤ L - 1 := by omega
  rw [Nat.size_le, gadgetPolyLen] at h1
  have h2 : 2 ^ L = 2 * 2 ^ (L - 1) := by
    rw [← pow_succ']; congr 1; omega
  have h3 : 2 ^ L - 1 ≤ d * (2 ^ L - 1) := Nat.le_mul_of_pos_left _ hd
  have h4 : 1 ≤ 2 ^ (L - 1) := Nat.one_le_two_pow
  omega

theorem gadgetFor_evalPoly {calls : ℕ} (hc : 1 ≤ calls) {G : Gadget F}
    (hG : Spec.GadgetFor F calls G) {p : ℕ} (hp : wirePolyLen calls = .ok p)
    (hcap : gadgetPolyLen G.degree p ≤ NttField.genOrder F) (wires : List (List F))
    (hw : wires.length = G.arity) (hlen : ∀ w ∈ wires, w.length = p) :
    ∃ out, G.evalPoly wires = .ok out ∧
      (∃ k, out.length = 2 ^ k) ∧ gadgetPolyLen G.degree p ≤ out.length ∧
      extendValues (out.take (gadgetPolyLen G.degree p)) out.length = .ok out ∧
      ∀ x : F, ∃ inp y, mapRes (fun w => lagPolyEval w x) wires = .ok inp ∧
        G.eval inp = .ok y ∧ lagPolyEval out x = .ok y := by
  obtain rfl := wirePolyLen_ok.1 hp
  obtain ⟨hl, ha, hd⟩ := gadgetFor_lawful hc hG hcap
  have hM := cap_size hcap
  have hL := (size_poly_le (L := Nat.size calls) hd).trans hM
  obtain ⟨Ws, hWs, rfl⟩ := exists_evals_list hL wires hlen
  obtain ⟨Q, hQ, h1, h2⟩ := hl Ws (by simpa using hw) hWs
  set m := gadgetPolyLen G.degree (2 ^ Nat.size calls) with hm
  have hmM : m ≤ 2 ^ Nat.size (m - 1) := by
    have := Nat.lt_size_self (m - 1); omega
  refine ⟨_, h1, ⟨_, evals_length ..⟩, by rw [evals_length]; exact hmM, ?_, fun x => ?_⟩
  · rw [evals_length]
    have : (Spec.evals Q (nthRoot F (Nat.size (m - 1))) (2 ^ Nat.size (m - 1))).take m =
        Spec.evals Q (nthRoot F (Nat.size (m - 1))) m := by
      simp only [Spec.evals]
      rw [← List.map_take, List.take_range, min_eq_left hmM]
    rw [this]
    exact extendValues_evals hM hmM Q hQ
  · refine ⟨Ws.map fun W => W.eval x, Q.eval x, ?_, h2 x, ?_⟩
    · rw [mapRes_map]
      apply mapRes_pure
      intro W hW
      exact lagPolyEval_evals hL W (hWs W hW) x
    · refine lagPolyEval_evals hM Q (lt_of_lt_of_le hQ ?_) x
      exact_mod_cast hmM

/-! ### Completeness -/

variable {Meas Agg : Type} {V : Valid F Meas Agg}

namespace Valid

theorem Lawful.proofLen_iff (h : V.Lawful) {n : ℕ} : V.proofLen = .ok n ↔ n = V.off V.num := by
  rw [h.proofLen_eq]; simp [eq_comm]

theorem Lawful.bound_zip (h : V.Lawful) (B : ℕ)
    (hB' : ∀ g c p, (g, c) ∈ List.zip V.gadgets V.gadgetCalls → wirePolyLen c = .ok p →
      g.degree * (p - 1) ≤ B) : ∀ g < V.num, (V.gad g).degree * (2 ^ V.L g - 1) ≤ B := by
  intro g hg
  apply hB' (V.gad g) (V.calls g) _ _ (wirePolyLen_eq V g)
  rw [h.zip_eq]
  exact List.mem_map.2 ⟨g, by simpa using hg, rfl⟩

theorem Lawful.prove_total (h : V.Lawful) {meas pr jr : List F} (hmeas : meas.length = V.measLen)
    (hpr : pr.length = V.proveRandLen) (hjr : jr.length = V.jointRandLen) :
    ∃ π, V.prove meas pr jr = .ok π ∧ V.proofLen = .ok π.length := by
  obtain ⟨out, log, π, -, -, -, -, h1, h2, -⟩ := h.prove_eq hmeas hpr hjr
  exact ⟨π, h1, h.proofLen_iff.2 h2⟩

theorem Lawful.query_total (h : V.Lawful) {meas π qr jr : List F} {N : ℕ}
    (hmeas : meas.length = V.measLen) (hπ : V.proofLen = .ok π.length)
    (hqr : qr.length = V.queryRandLen) (hjr : jr.length = V.jointRandLen)
    (hN : 1 ≤ N) (hN' : N < PyField.modulus F) :
    (Spec.BadTestPoint V qr ∧ V.query meas π qr jr N = .error rootOfUnityErr) ∨
    (¬ Spec.BadTestPoint V qr ∧ ∃ v, V.query meas π qr jr N = .ok v ∧ v.length = V.verifierLen) := by
  obtain ⟨out, log, -, -, -, -, hq⟩ := h.query_eq hmeas (h.proofLen_iff.1 hπ) hqr hjr hN hN'
  rw [h.badTestPoint_iff hqr]
  by_cases hb : ∃ g < V.num, coef qr (toff V.evalOutputLen + g) ^ 2 ^ V.L g = 1
  · exact .inl ⟨hb, by rw [hq, if_pos hb]⟩
  · refine .inr ⟨hb, _, by rw [hq, if_neg hb], ?_⟩
    have := flatMap_blocks_length V (fun g j =>
        (wireP (V.L g) (wval (V.sdq π g) (log g) j)).eval (coef qr (toff V.evalOutputLen + g)))
      (fun g => (V.Pq π g).eval (coef qr (toff V.evalOutputLen + g)))
    rw [verifierLen_eq]
    rw [List.length_cons, add_comm]
    exact congrArg (1 + ·) this

theorem Lawful.decide_honest (h : V.Lawful) {meas jr : List F} (hmeas : meas.length = V.measLen)
    (hjr : jr.length = V.jointRandLen) (hacc : Spec.Accepts V meas jr) {pr : List F}
    (hpr : pr.length = V.proveRandLen) :
    ∃ π, V.prove meas pr jr = .ok π ∧ V.proofLen = .ok π.length ∧
      ∀ qr : List F, qr.length = V.queryRandLen → ∀ v, V.query meas π qr jr 1 = .ok v →
        V.decide v = .ok true := by
  obtain ⟨out, hout, hz⟩ := hacc
  obtain ⟨log, hlog⟩ := h.honest hmeas hjr hout
  obtain ⟨π, h1, h2, h3⟩ := hlog pr hpr
  refine ⟨π, h1, h.proofLen_iff.2 h2, fun qr hqr v hv => ?_⟩
  rw [h3 qr hqr] at hv
  split at hv
  · cases hv
  · obtain rfl := Except.ok.inj hv
    rw [reduceOut_zero hz]
    rw [h.decide_blocks 0 (fun g j => (V.Wp (V.sdp pr) log g j).eval
        (coef qr (toff V.evalOutputLen + g))) (fun g => (V.gad g).val (tab (V.ar g) (fun j =>
          (V.Wp (V.sdp pr) log g j).eval (coef qr (toff V.evalOutputLen + g)))))]
    simp

theorem Lawful.complete (h : V.Lawful) {meas jr pr qr : List F}
    (hmeas : meas.length = V.measLen) (hjr : jr.length = V.jointRandLen)
    (hpr : pr.length = V.proveRandLen) (hqr : qr.length = V.queryRandLen)
    (hacc : Spec.Accepts V meas jr) :
    ∃ π, V.prove meas pr jr = .ok π ∧ V.proofLen = .ok π.length ∧
      ∀ (N : ℕ), 1 ≤ N → N < PyField.modulus F → ∀ ms πs : Fin N → List F,
        Spec.IsSum ms meas → Spec.IsSum πs π →
        (Spec.BadTestPoint V qr ∧ ∀ i, V.query (ms i) (πs i) qr jr N = .error rootOfUnityErr) ∨
        (¬ Spec.BadTestPoint V qr ∧ ∃ (vs : Fin N → List F) (v : List F),
          (∀ i, V.query (ms i) (πs i) qr jr N = .ok (vs i)) ∧ Spec.IsSum vs v ∧
          v.length = V.verifierLen ∧ V.decide v = .ok true) := by
  obtain ⟨π, h1, h2, h3⟩ := h.decide_honest hmeas hjr hacc hpr
  refine ⟨π, h1, h2, fun N hN hN' ms πs hms hπs => ?_⟩
  have hq := h.query_total hmeas h2 hqr hjr le_rfl (one_lt_modulus F)
  rcases h.query_sum hN hN' hms hπs hmeas (h.proofLen_iff.1 h2) hqr hjr with hb | hb
  · left
    rcases hq with hq | hq
    · exact ⟨hq.1, hb.2⟩
    · obtain ⟨-, v, hv, -⟩ := hq
      rw [hb.1] at hv; cases hv
  · obtain ⟨v, vs, hv, hvs, hs⟩ := hb
    right
    rcases hq with hq | hq
    · rw [hq.2] at hv; cases hv
    · obtain ⟨hg, v', hv', hl⟩ := hq
      rw [hv] at hv'
      obtain rfl := Except.ok.inj hv'
      exact ⟨hg, vs, v, hvs, hs, hl, h3 qr hqr v hv⟩

theorem Lawful.sound_shares (h : V.Lawful) {N : ℕ} (hN : 1 ≤ N)
    (hN' : N < PyField.modulus F) {ms πs : Fin N → List F} {meas jr out π : List F}
    (hms : Spec.IsSum ms meas) (hπs : Spec.IsSum πs π)
    (hmeas : meas.length = V.measLen) (hjr : jr.length = V.jointRandLen)
    (hout : V.evalPlain meas jr 1 = .ok out) (hne : ∃ x ∈ out, x ≠ 0)
    (hπ : V.proofLen = .ok π.length) (B : ℕ) (hB : 1 ≤ B)
    (hB' : ∀ g c p, (g, c) ∈ List.zip V.gadgets V.gadgetCalls → wirePolyLen c = .ok p →
      g.degree * (p - 1) ≤ B) :
    Set.ncard {qr : Fin V.queryRandLen → F | ∃ (vs : Fin N → List F) (v : List F),
      (∀ i, V.query (ms i) (πs i) (List.ofFn qr) jr N = .ok (vs i)) ∧ Spec.IsSum vs v ∧
        V.decide v = .ok true} ≤
      B * PyField.modulus F ^ (V.queryRandLen - 1) := by
  have hπ' := h.proofLen_iff.1 hπ
  have hs := h.sound hmeas hjr hout hne hπ' B hB (h.bound_zip B hB')
  rw [card_eq] at hs
  refine le_trans (Set.ncard_le_ncard ?_ (Set.toFinite _)) hs
  rintro qr ⟨vs, v, h1, h2, h3⟩
  rcases h.query_sum hN hN' hms hπs hmeas hπ' (qr := List.ofFn qr) (by simp) hjr with h | h
  · have := h1 ⟨0, hN⟩
    rw [h.2 ⟨0, hN⟩] at this
    cases this
  · obtain ⟨v', vs', ha, hb, hc⟩ := h
    have : vs' = vs := by
      funext i
      have := (hb i).symm.trans (h1 i)
      simpa using this
    subst this
    have hv : v = v' := by
      apply IsSum.unique h2 hc
      · rw [← h2.1 ⟨0, hN⟩, hc.1 ⟨0, hN⟩]
    exact ⟨v', ha, hv ▸ h3⟩

end Valid

/-! ### `run_flp` -/

theorem isSum_ofFn {n : ℕ} (vs : Fin n → List F) (v : List F) :
    Spec.IsSum vs v ↔
      (∀ w ∈ List.ofFn vs, w.length = v.length) ∧ ∀ j, coef v j = colsum (List.ofFn vs) j := by
  rw [isSum_iff]
  have h : ∀ j, ∑ i, coef (vs i) j = colsum (List.ofFn vs) j := by
    intro j
    unfold colsum
    rw [List.map_ofFn, List.sum_ofFn]
    rfl
  simp only [h, List.forall_mem_ofFn_iff]

theorem vecSum_eq {n : ℕ} {vs : List (List F)} {v : List F} (hv : v.length = n)
    (h1 : ∀ w ∈ vs, w.length = v.length) (h2 : ∀ j, coef v j = colsum vs j) :
    forFold vs (fieldZeros F n) (fun acc w => vecAdd acc w) = .ok v := by
  have := vecAdd_fold (n := n) vs (fun w hw => by rw [h1 w hw, hv]) fun _ => (0 : F)
  rw [show fieldZeros F n = tab n fun _ => (0 : F) by simp [fieldZeros, tab], this]
  simp only [zero_add, ← h2]
  rw [← eq_tab hv]

theorem mapRes_ofFn {α β : Type} (f : α → Res β) (l : List α) {n : ℕ} (hl : l.length = n)
    (r : Fin n → β) (h : ∀ i : Fin n, f (l[i]'(by omega)) = .ok (r i)) :
    mapRes f l = .ok (List.ofFn r) := by
  subst hl
  induction l with
  | nil => rfl
  | cons a l ih =>
    have h0 := h ⟨0, by simp⟩
    simp only [Fin.getElem_fin, List.getElem_cons_zero] at h0
    have ht := ih (fun i => r i.succ) fun i => by simpa using h i.succ
    simp only [mapRes, h0, ht, List.length_cons, List.ofFn_succ]
    rfl

namespace Valid

open Classical in
theorem Lawful.runFlp_eq (h : V.Lawful) {meas jr pr qr : List F}
    (hmeas : meas.length = V.measLen) (hjr : jr.length = V.jointRandLen)
    (hpr : pr.length = V.proveRandLen) (hqr : qr.length = V.queryRandLen)
    (hacc : Spec.Accepts V meas jr) (N : ℕ) (hN : 1 ≤ N) (hN' : N < PyField.modulus F)
    (measRands proofRands : List (List F)) (h1 : measRands.length = N - 1)
    (h2 : ∀ r ∈ measRands, r.length = V.measLen) (h3 : proofRands.length = N - 1)
    (h4 : ∀ r ∈ proofRands, V.proofLen = .ok r.length) :
    runFlp V meas jr pr qr measRands proofRands N =
      if Spec.BadTestPoint V qr then .error rootOfUnityErr else .ok true := by
  obtain ⟨π, hπ, hπl, hc⟩ := h.complete hmeas hjr hpr hqr hacc
  have hm' : ∀ r ∈ measRands, r.length = meas.length := fun r hr => by rw [h2 r hr, hmeas]
  have hp' : ∀ r ∈ proofRands, r.length = π.length := fun r hr => by
    have := h4 r hr; rw [hπl] at this; simpa using this.symm
  unfold runFlp
  rw [hπ]
  simp only [Except.ok_bind']
  rw [additiveSecretShare_eq hm', additiveSecretShare_eq hp']
  simp only [Except.ok_bind']
  have hml : (measRands ++ [tab meas.length fun j => coef meas j - colsum measRands j]).length = N := by
    simp [h1]; omega
  have hpl : (proofRands ++ [tab π.length fun j => coef π j - colsum proofRands j]).length = N := by
    simp [h3]; omega
  have hS := (isSum_list _ _).1 (share_isSum hm')
  have hT := (isSum_list _ _).1 (share_isSum hp')
  generalize measRands ++ [tab meas.length fun j => coef meas j - colsum measRands j] = ms at *
  generalize proofRands ++ [tab π.length fun j => coef π j - colsum proofRands j] = πs at *
  have hS' : Spec.IsSum (fun i : Fin N => ms[i]) meas := by
    subst hml; exact (isSum_list _ _).2 hS
  have hT' : Spec.IsSum (fun i : Fin N => πs[i]) π := by
    subst hpl; exact (isSum_list _ _).2 hT
  have hzl : (List.zip ms πs).length = N := by simp [hpl, hml]
  rcases hc N hN hN' _ _ hS' hT' with ⟨hb, he⟩ | ⟨hg, vs, v, hvs, hsum, hvl, hd⟩
  · rw [if_pos hb]
    obtain ⟨a, t, hcons⟩ := List.exists_cons_of_ne_nil
      (List.ne_nil_of_length_pos (show 0 < (List.zip ms πs).length by omega))
    have h0 := he ⟨0, by omega⟩
    have ha : a = (ms[0], πs[0]) := by
      have : (List.zip ms πs)[0] = a := by simp only [hcons, List.getElem_cons_zero]
      rw [← this, List.getElem_zip]
    rw [hcons, mapRes, ha]
    simp only
    rw [show V.query ms[0] πs[0] qr jr N = .error rootOfUnityErr from h0]
    rfl
  · rw [if_neg hg, mapRes_ofFn _ _ hzl vs (by
      intro i
      simp only [Fin.getElem_fin, List.getElem_zip]
      exact hvs i)]
    simp only [Except.ok_bind']
    rw [getI_of_lt (by simp; omega)]
    simp only [Except.ok_bind', List.getElem_ofFn]
    obtain ⟨ha, hb⟩ := (isSum_ofFn vs v).1 hsum
    rw [hsum.1, vecSum_eq rfl ha hb]
    exact hd

end Valid

theorem forFold_error {α β : Type} (l : List β) (init : α) (f : α → β → Res α) {x : β} (hx : x ∈ l)
    (h : ∀ a, ∃ e, f a x = .error e) : ∃ e, forFold l init f = .error e := by
  induction l generalizing init with
  | nil => simp at hx
  | cons b l ih =>
    rw [forFold_cons]
    cases hb : f init b with
    | error e => exact ⟨e, rfl⟩
    | ok a =>
      rcases List.mem_cons.1 hx with rfl | hx
      · obtain ⟨e, he⟩ := h init
        rw [hb] at he; cases he
      · exact ih a hx

/-! ### Additive sharing hides -/

theorem colsum_cons (v : List F) (vs : List (List F)) (i : ℕ) :
    colsum (v :: vs) i = coef v i + colsum vs i := by simp [colsum]

theorem eraseIdx_mid {α : Type} (a b : List α) (x : α) : (a ++ x :: b).eraseIdx a.length = a ++ b := by
  rw [List.eraseIdx_append_of_length_le le_rfl]; simp

theorem share_unique {vec : List F} {k j : ℕ} (hj : j ≤ k) {t : List (List F)} (ht : t.length = k)
    (htl : ∀ v ∈ t, v.length = vec.length) :
    ∃! rands : List (List F), rands.length = k ∧ (∀ r ∈ rands, r.length = vec.length) ∧
      ∃ s, additiveSecretShare vec rands = .ok s ∧ s.eraseIdx j = t := by
  by_cases hjk : j = k
  · subst hjk
    refine ⟨t, ⟨ht, htl, _, additiveSecretShare_eq htl, ?_⟩, ?_⟩
    · rw [List.eraseIdx_append_of_length_le (by omega), ht]; simp
    · rintro r ⟨h1, h2, s, hs, he⟩
      rw [additiveSecretShare_eq h2] at hs
      obtain rfl := Except.ok.inj hs
      rw [List.eraseIdx_append_of_length_le (by omega), h1] at he
      simpa using he
  · have hlt : j < k := by omega
    rcases List.eq_nil_or_concat' t with rfl | ⟨t', l, rfl⟩
    · simp at ht; omega
    have hl' : t'.length = k - 1 := by simp at ht; omega
    have htl' : ∀ v ∈ t', v.length = vec.length := fun v hv => htl v (by simp [hv])
    have hll : l.length = vec.length := htl l (by simp)
    obtain ⟨a, b, rfl, ha⟩ : ∃ a b, t' = a ++ b ∧ a.length = j :=
      ⟨t'.take j, t'.drop j, by simp, by simp; omega⟩
    subst ha
    have hal : ∀ v ∈ a, v.length = vec.length := fun v hv => htl' v (by simp [hv])
    have hbl : ∀ v ∈ b, v.length = vec.length := fun v hv => htl' v (by simp [hv])
    set x := tab vec.length fun i => coef vec i - coef l i - colsum (a ++ b) i with hx
    have hxl : x.length = vec.length := by simp [hx]
    have hrl : ∀ r ∈ a ++ x :: b, r.length = vec.length := by
      intro r hr
      simp only [List.mem_append, List.mem_cons] at hr
      rcases hr with hr | rfl | hr
      · exact hal r hr
      · exact hxl
      · exact hbl r hr
    refine ⟨a ++ x :: b, ⟨?_, hrl, _, additiveSecretShare_eq hrl, ?_⟩, ?_⟩
    · simp at hl' ⊢; omega
    · rw [List.append_assoc, List.cons_append, eraseIdx_mid, List.append_assoc]
      congr 3
      rw [eq_tab hll]
      apply tab_congr
      intro i hi
      rw [colsum_append, colsum_cons, hx, coef_tab, if_pos hi, colsum_append]
      ring
    · rintro r ⟨h1, h2, s, hs, he⟩
      rw [additiveSecretShare_eq h2] at hs
      obtain rfl := Except.ok.inj hs
      obtain ⟨a', x', b', rfl, ha'⟩ : ∃ a' x' b', r = a' ++ x' :: b' ∧ a'.length = a.length :=
        ⟨r.take a.length, r[a.length], r.drop (a.length + 1), by simp, by simp; omega⟩
      rw [← ha', List.append_assoc, List.cons_append, eraseIdx_mid, ← List.append_assoc] at he
      obtain ⟨he1, he2⟩ := List.append_inj' he rfl
      obtain ⟨rfl, rfl⟩ := List.append_inj he1 ha'
      congr 2
      have hx' : x'.length = vec.length := h2 x' (by simp)
      rw [hx, eq_tab hx']
      apply tab_congr
      intro i hi
      have : coef l i = coef vec i - colsum (a' ++ x' :: b') i := by
        have h3 : l = tab vec.length fun j => coef vec j - colsum (a' ++ x' :: b') j := by
          simpa using he2.symm
        rw [h3, coef_tab, if_pos hi]
      rw [this, colsum_append, colsum_cons, colsum_append]
      ring

end
end Vdaf
