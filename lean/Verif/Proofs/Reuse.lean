import Verif.Proofs.Prio3Inst

/-! The verifiers of sufficiently many verifications of the same report determine the measurement. -/

namespace Vdaf
open Finset Polynomial

section
variable {F : Type} [NttField F]

namespace Prog
variable {α β : Type}

/-- Whatever the answers, the inputs of the calls of gadget 0 are `l`. -/
def Reads (p : Prog F α) (l : List (List F)) : Prop :=
  ∀ ans log a log', p.trace ans log = .ok (a, log') → log' 0 = log 0 ++ l

omit [NttField F] in
theorem Reads.pure (a : α) : (Prog.pure a : Prog F α).Reads [] := by
  intro ans log b log' h
  cases h
  simp

theorem Reads.bind {p : Prog F α} {f : α → Prog F β} {l1 l2 : List (List F)} (h1 : p.Reads l1)
    (h2 : ∀ a, (f a).Reads l2) : (p.bind f).Reads (l1 ++ l2) := by
  intro ans log b log' h
  rw [trace_bind] at h
  obtain ⟨⟨a, log1⟩, e1, e2⟩ := Except.bind_eq_ok.1 h
  rw [h2 a ans log1 b log' e2, h1 ans log a log1 e1, List.append_assoc]

omit [NttField F] in
theorem Reads.call {inp : List F} {k : F → Prog F β} {l : List (List F)} (h : ∀ y, (k y).Reads l) :
    (Prog.call 0 inp k).Reads (inp :: l) := by
  intro ans log b log' hb
  have := h _ ans _ b log' hb
  rw [this, Function.update_self]
  simp

theorem Reads.forFold (l : List β) (f : α → β → Prog F α) (inp : β → List (List F))
    (h : ∀ a, ∀ b ∈ l, (f a b).Reads (inp b)) (a : α) : (forFold l a f).Reads (l.flatMap inp) := by
  induction l generalizing a with
  | nil => exact Reads.pure a
  | cons b l ih =>
    rw [List.flatMap_cons]
    exact Reads.bind (h a b (by simp)) fun a => ih (fun a b hb => h a b (by simp [hb])) a

end Prog

variable {Meas Agg : Type} {V : Valid F Meas Agg}

theorem chunkLoop_reads (meas jr : List F) (cl calls : ℕ) (hjr : jr.length = calls) :
    (chunkLoop meas jr 1 cl calls).Reads
      ((List.range calls).flatMap fun i => [tab (2 * cl) (chunkInp meas 1 (coef jr i) cl i)]) := by
  rw [chunkLoop_eq _ _ _ _ _ hjr]
  refine Prog.Reads.forFold _ _ _ (fun a i hi => ?_) _
  rw [if_pos (by simpa using hi)]
  exact .call fun y => .pure _

theorem flatMap_singleton' {α β : Type} (l : List α) (f : α → β) : (l.flatMap fun i => [f i]) = l.map f := by
  induction l with
  | nil => rfl
  | cons a l ih => simp only [List.flatMap_cons, ih, List.map_cons, List.singleton_append]

theorem wv_map {n k j : ℕ} (f : ℕ → List F) (hk : k < n) :
    Prog.wv ((List.range n).flatMap fun i => [f i]) k j = coef (f k) j := by
  unfold Prog.wv
  rw [flatMap_singleton', List.getD_eq_getElem?_getD, List.getElem?_map, List.getElem?_range hk]
  rfl

theorem chunk_inj {meas meas' jr jr' : List F} {n cl : ℕ} (hcl : 1 ≤ cl) (h1 : meas.length = n) (h2 : meas'.length = n)
    (h : ∀ k < numCalls n cl, ∀ j < 2 * cl,
      Prog.wv ((List.range (numCalls n cl)).flatMap fun i => [tab (2 * cl) (chunkInp meas 1 (coef jr i) cl i)]) k j =
      Prog.wv ((List.range (numCalls n cl)).flatMap fun i => [tab (2 * cl) (chunkInp meas' 1 (coef jr' i) cl i)]) k j) :
    meas = meas' := by
  apply list_eq_of_coef (h1.trans h2.symm)
  intro i hi
  have hlt : i / cl < numCalls n cl := by
    rw [Nat.div_lt_iff_lt_mul hcl]
    exact lt_of_lt_of_le (h1 ▸ hi) (numCalls_mul hcl)
  have hmod := Nat.mod_lt i hcl
  have := h (i / cl) hlt (2 * (i % cl) + 1) (by omega)
  rw [wv_map _ hlt, wv_map _ hlt, coef_tab, if_pos (by omega), coef_tab, if_pos (by omega)] at this
  unfold chunkInp at this
  rw [if_neg (by omega), if_neg (by omega), show (2 * (i % cl) + 1) / 2 = i % cl by omega, mul_comm,
    Nat.div_add_mod] at this
  linear_combination this

/-- The inputs of the gadget determine the encoded measurement. -/
theorem Library.inputs {fn : Spec.Fun Meas Agg} (hV : Spec.Library F V fn) {meas jr meas' jr' : List F}
    (hmeas : meas.length = V.measLen) (hjr : jr.length = V.jointRandLen)
    (hmeas' : meas'.length = V.measLen) (hjr' : jr'.length = V.jointRandLen)
    {ans ans' : ℕ → ℕ → List F → F} {out out' : List F} {log log' : Prog.Log F}
    (h : (V.eval meas jr 1).trace ans (fun _ => []) = .ok (out, log))
    (h' : (V.eval meas' jr' 1).trace ans' (fun _ => []) = .ok (out', log'))
    (he : ∀ k < V.calls 0, ∀ j < V.ar 0, Prog.wv (log 0) k j = Prog.wv (log' 0) k j) : meas = meas' := by
  cases hV with
  | count =>
    rw [Count.eval_eq 1 hmeas hjr] at h
    rw [Count.eval_eq 1 hmeas' hjr'] at h'
    have r := Prog.Reads.call (fun y => .pure [y - coef meas 0]) _ _ _ _ h
    have r' := Prog.Reads.call (fun y => .pure [y - coef meas' 0]) _ _ _ _ h'
    have := he 0 one_pos 0 two_pos
    rw [r, r'] at this
    apply list_eq_of_coef (hmeas.trans hmeas'.symm)
    intro i hi
    have hi : i < 1 := by rw [hmeas] at hi; exact hi
    obtain rfl : i = 0 := by omega
    exact this
  | @sum max _ h0 hs =>
    obtain ⟨h1, G, hG, rfl⟩ := Sum_ok hs
    rw [Sum.eval_eq 1 hmeas hjr] at h
    rw [Sum.eval_eq 1 hmeas' hjr'] at h'
    have r := Prog.Reads.forFold (List.range (Nat.size max)) _ (fun i => [[coef meas i]])
      (fun a i _ => .call fun y => .pure _) _ _ _ _ _ h
    have r' := Prog.Reads.forFold (List.range (Nat.size max)) _ (fun i => [[coef meas' i]])
      (fun a i _ => .call fun y => .pure _) _ _ _ _ _ h'
    apply list_eq_of_coef (hmeas.trans hmeas'.symm)
    intro i hi
    have hi : i < Nat.size max := by rw [hmeas] at hi; exact hi
    have := he i hi 0 (by
      obtain ⟨hd, ha⟩ := polyEval_deg hG
      change 0 < G.arity
      omega)
    rw [r, r', List.nil_append, List.nil_append, wv_map _ hi, wv_map _ hi] at this
    exact this
  | @sumVec length max cl _ hs =>
    obtain ⟨h1, h2, h3, h4, rfl⟩ := SumVec_ok hs
    rw [SumVec.eval_eq (length := length) (max := max) (one_lt_modulus F) hmeas hjr, Nat.cast_one, inv_one] at h
    rw [SumVec.eval_eq (length := length) (max := max) (one_lt_modulus F) hmeas' hjr', Nat.cast_one, inv_one] at h'
    have r := ((chunkLoop_reads meas jr cl _ hjr).bind fun y => .pure _) _ _ _ _ h
    have r' := ((chunkLoop_reads meas' jr' cl _ hjr').bind fun y => .pure _) _ _ _ _ h'
    rw [r, r', List.nil_append, List.nil_append, List.append_nil, List.append_nil] at he
    exact chunk_inj h2 hmeas hmeas' fun k hk j hj => he k hk j (by
      change j < (ParallelSum (Mul F) cl).arity; simp only [ParallelSum, Mul]; omega)
  | @histogram length cl _ _ hs =>
    obtain ⟨h1, h2, rfl⟩ := Histogram_ok hs
    rw [Histogram.eval_eq (length := length) (one_lt_modulus F) hmeas hjr, Nat.cast_one, inv_one] at h
    rw [Histogram.eval_eq (length := length) (one_lt_modulus F) hmeas' hjr', Nat.cast_one, inv_one] at h'
    have r := ((chunkLoop_reads meas jr cl _ hjr).bind fun y => .pure _) _ _ _ _ h
    have r' := ((chunkLoop_reads meas' jr' cl _ hjr').bind fun y => .pure _) _ _ _ _ h'
    rw [r, r', List.nil_append, List.nil_append, List.append_nil, List.append_nil] at he
    exact chunk_inj h2 hmeas hmeas' fun k hk j hj => he k hk j (by
      change j < (ParallelSum (Mul F) cl).arity; simp only [ParallelSum, Mul]; omega)
  | @multihot length mw cl _ hs =>
    obtain ⟨h1, h2, h3, h4, h5, rfl⟩ := MultihotCountVec_ok hs
    rw [MultihotCountVec.eval_eq (length := length) h3 (by omega) (one_lt_modulus F) hmeas hjr, Nat.cast_one, inv_one] at h
    rw [MultihotCountVec.eval_eq (length := length) h3 (by omega) (one_lt_modulus F) hmeas' hjr', Nat.cast_one, inv_one] at h'
    have r := ((chunkLoop_reads meas jr cl _ hjr).bind fun y => .pure _) _ _ _ _ h
    have r' := ((chunkLoop_reads meas' jr' cl _ hjr').bind fun y => .pure _) _ _ _ _ h'
    rw [r, r', List.nil_append, List.nil_append, List.append_nil, List.append_nil] at he
    exact chunk_inj h2 hmeas hmeas' fun k hk j hj => he k hk j (by
      change j < (ParallelSum (Mul F) cl).arity; simp only [ParallelSum, Mul]; omega)

/-- Evaluations at as many points as the wires are long determine the inputs of the gadget. -/
theorem Valid.Lawful.wires (h : V.Lawful) {g : ℕ} (hg : g < V.num) {meas π jr meas' π' jr' : List F}
    (hmeas : meas.length = V.measLen) (hπ : π.length = V.off V.num) (hjr : jr.length = V.jointRandLen)
    (hmeas' : meas'.length = V.measLen) (hπ' : π'.length = V.off V.num) (hjr' : jr'.length = V.jointRandLen)
    {qr v : ℕ → List F} (hqr : ∀ k < 2 ^ V.L g, (qr k).length = V.queryRandLen)
    (hinj : ∀ k < 2 ^ V.L g, ∀ k' < 2 ^ V.L g, coef (qr k) (Valid.toff V.evalOutputLen + g) =
      coef (qr k') (Valid.toff V.evalOutputLen + g) → k = k')
    (hv : ∀ k < 2 ^ V.L g, V.query meas π (qr k) jr 1 = .ok (v k))
    (hv' : ∀ k < 2 ^ V.L g, V.query meas' π' (qr k) jr' 1 = .ok (v k)) :
    ∃ out log out' log', (V.eval meas jr 1).trace (fun g k _ => V.ansq π g k) (fun _ => []) = .ok (out, log) ∧
      (V.eval meas' jr' 1).trace (fun g k _ => V.ansq π' g k) (fun _ => []) = .ok (out', log') ∧
      ∀ k < V.calls g, ∀ j < V.ar g, Prog.wv (log g) k j = Prog.wv (log' g) k j := by
  have hpos : 0 < 2 ^ V.L g := by positivity
  obtain ⟨out, log, h1, -, -, -, -⟩ := h.query_eq hmeas hπ (hqr 0 hpos) hjr le_rfl (one_lt_modulus F)
  obtain ⟨out', log', h1', -, -, -, -⟩ := h.query_eq hmeas' hπ' (hqr 0 hpos) hjr' le_rfl (one_lt_modulus F)
  refine ⟨out, log, out', log', h1, h1', fun k hk j hj => ?_⟩
  have key : ∀ k < 2 ^ V.L g, (wireP (V.L g) (wval (V.sdq π g) (log g) j)).eval (coef (qr k) (Valid.toff V.evalOutputLen + g)) =
      (wireP (V.L g) (wval (V.sdq π' g) (log' g) j)).eval (coef (qr k) (Valid.toff V.evalOutputLen + g)) := by
    intro k hk
    obtain ⟨o, l, e1, -, -, -, e2⟩ := h.query_eq hmeas hπ (hqr k hk) hjr le_rfl (one_lt_modulus F)
    obtain ⟨o', l', e1', -, -, -, e2'⟩ := h.query_eq hmeas' hπ' (hqr k hk) hjr' le_rfl (one_lt_modulus F)
    rw [h1] at e1
    rw [h1'] at e1'
    obtain ⟨rfl, rfl⟩ : out = o ∧ log = l := by simpa using e1
    obtain ⟨rfl, rfl⟩ : out' = o' ∧ log' = l' := by simpa using e1'
    rw [hv k hk] at e2
    rw [hv' k hk] at e2'
    split at e2
    · cases e2
    rename_i hnb
    rw [if_neg hnb] at e2'
    have e3 := (Except.ok.inj e2).symm.trans (Except.ok.inj e2')
    have e4 := (List.cons.inj e3).2
    have hlen : ∀ (π : List F) (log : Prog.Log F) (i : ℕ), i < V.num → (V.vpart π log (fun g => coef (qr k) (Valid.toff V.evalOutputLen + g)) i).length = V.ar i + 1 := by
      intro π log i _
      simp [Valid.vpart]
    have c1 := Valid.coef_flatMap V.num _ (fun i => V.ar i + 1) (hlen π log) g j hg (by omega)
    have c2 := Valid.coef_flatMap V.num _ (fun i => V.ar i + 1) (hlen π' log') g j hg (by omega)
    rw [e4, c2] at c1
    unfold Valid.vpart at c1
    rw [coef_append, coef_append, tab_length, if_pos hj, if_pos (by simpa using hj), coef_tab, if_pos hj, coef_tab, if_pos hj] at c1
    exact c1.symm
  have hL := h.L_le hg
  have heq : wireP (V.L g) (wval (V.sdq π g) (log g) j) = wireP (V.L g) (wval (V.sdq π' g) (log' g) j) := by
    refine Polynomial.eq_of_degrees_lt_of_eval_index_eq (s := range (2 ^ V.L g))
      (v := fun k => coef (qr k) (Valid.toff V.evalOutputLen + g)) ?_ ?_ ?_ ?_
    · intro a ha b hb hab
      exact hinj a (by simpa using ha) b (by simpa using hb) hab
    · rw [card_range]; exact wireP_degree hL _
    · rw [card_range]; exact wireP_degree hL _
    · intro a ha
      exact key a (by simpa using ha)
  have hc := V.calls_lt g
  have e1 := wireP_eval hL (i := k + 1) (by omega) (wval (V.sdq π g) (log g) j)
  have e2 := wireP_eval hL (i := k + 1) (by omega) (wval (V.sdq π' g) (log' g) j)
  rw [heq, e2] at e1
  unfold wval at e1
  simpa using e1.symm

end

namespace Prio3
variable {X : Xof} {F : Type} [NttField F] {Meas Agg : Type} {P : Prio3 X F Meas Agg}

theorem JointRandOf.unique {ctx nonce : Bytes} {ms : ℕ → List F} {bl : ℕ → Option Bytes} {s s' : Option Bytes}
    {jrs jrs' : List F} (h : P.JointRandOf ctx nonce ms bl s jrs) (h' : P.JointRandOf ctx nonce ms bl s' jrs') :
    jrs = jrs' := by
  rcases h with ⟨a, -, rfl⟩ | ⟨a, b, p, x, -, h1, h2, h3⟩
  · rcases h' with ⟨a', -, rfl⟩ | ⟨a', -⟩
    · rfl
    · omega
  · rcases h' with ⟨a', -⟩ | ⟨a', b', p', x', -, h1', h2', h3'⟩
    · omega
    have hpp : (List.range P.shares).map p = (List.range P.shares).map p' := by
      apply List.map_congr_left
      intro j hj
      have hj : j < P.shares := by simpa using hj
      have e := (h1 j hj).1.symm.trans (h1' j hj).1
      have e := Option.some.inj e
      have := (h1 j hj).2
      rw [e, (h1' j hj).2] at this
      exact (Except.ok.inj this).symm
    rw [hpp, h2'] at h2
    obtain rfl := Except.ok.inj h2
    rw [h3'] at h3
    exact (Except.ok.inj h3).symm

/-- The sum of the verifier shares of the first proof -/
theorem first_query (W : P.WF) (hp : 0 < P.proofs) {vk ctx nonce : Bytes} {pub : Option (List Bytes)}
    {ish : ℕ → Prio3InputShare F} {st sh : ℕ → List F × Option Bytes} {msg : Option Bytes} {ms ps : ℕ → List F}
    {bl : ℕ → Option Bytes} (hexp : ∀ j < P.shares, P.expandInputShare ctx j (ish j) = .ok (ms j, ps j, bl j))
    (h : Spec.VerifySucceeds P vk ctx nonce pub ish st sh msg) :
    ∃ jrs qrs, P.JointRandOf ctx nonce ms bl msg jrs ∧ Spec.queryRands P vk ctx nonce = .ok qrs ∧
      (∀ j < P.shares, (ms j).length = P.flp.measLen) ∧
      (blk P.flp.queryRandLen qrs 0).length = P.flp.queryRandLen ∧
      (blk P.flp.jointRandLen jrs 0).length = P.flp.jointRandLen ∧
      P.flp.query (tab P.flp.measLen fun k => ∑ j ∈ range P.shares, coef (ms j) k)
        (tab P.proofLen fun k => ∑ j ∈ range P.shares, coef (blk P.proofLen (ps j) 0) k)
        (blk P.flp.queryRandLen qrs 0) (blk P.flp.jointRandLen jrs 0) 1 =
        .ok (tab P.flp.verifierLen fun k => ∑ j ∈ range P.shares, coef (sh j).1 k) := by
  have hN := W.shares_ge
  obtain ⟨ms', ps', bl', jrs, qrs, h1, h2, h3, h4⟩ := joint_of_success (by omega) h
  have he : ∀ j < P.shares, ms' j = ms j ∧ ps' j = ps j ∧ bl' j = bl j := by
    intro j hj
    have := h1 j hj
    rw [hexp j hj] at this
    have := Except.ok.inj this
    exact ⟨(congrArg Prod.fst this).symm, (congrArg (fun x => x.2.1) this).symm, (congrArg (fun x => x.2.2) this).symm⟩
  have hq : ∀ j, ∃ v : List F, j < P.shares → (∃ l, (sh j).1 = v ++ l) ∧
      P.flp.query (ms j) (blk P.proofLen (ps j) 0) (blk P.flp.queryRandLen qrs 0) (blk P.flp.jointRandLen jrs 0)
        P.shares = .ok v := by
    intro j
    by_cases hj : j < P.shares
    · obtain ⟨v, e1, e2⟩ := queryLoop_ok (h4 j hj).2.2
      refine ⟨v 0, fun _ => ⟨?_, ?_⟩⟩
      · rw [e1]
        obtain ⟨n, hn⟩ : ∃ n, P.proofs = n + 1 := ⟨P.proofs - 1, by omega⟩
        rw [hn, List.range_succ_eq_map, List.flatMap_cons]
        exact ⟨_, rfl⟩
      · have := e2 0 hp
        rw [(he j hj).1, (he j hj).2.1] at this
        exact this
    · exact ⟨[], fun h => absurd h hj⟩
  choose v hv using hq
  have hlen := fun j hj => query_ok_len W (by omega) W.modulus (hv j hj).2
  refine ⟨jrs, qrs, ?_, (queryRands_ok.1 h3).2.2, fun j hj => (hlen j hj).1, (hlen 0 (by omega)).2.2.1,
    (hlen 0 (by omega)).2.2.2.1, ?_⟩
  · rcases h2 with h | ⟨a, b, p, x, hx, g1, g2, g3⟩
    · exact .inl h
    · refine .inr ⟨a, b, p, x, hx, fun j hj => ?_, g2, g3⟩
      rw [← (he j hj).1, ← (he j hj).2.2]
      exact g1 j hj
  · have hms := isSum_range fun j hj => (hlen j hj).1
    have hπs := isSum_range (w := fun j => blk P.proofLen (ps j) 0) fun j hj => (hlen j hj).2.1
    have hpl := W.lawful.proofLen_eq
    rw [W.proofLen] at hpl
    have hpl := Except.ok.inj hpl
    rcases W.lawful.query_sum (by omega) W.modulus hms hπs (by simp) (by rw [← hpl]; simp) (hlen 0 (by omega)).2.2.1
      (hlen 0 (by omega)).2.2.2.1 with ⟨-, hb⟩ | ⟨v', vs', e1, e2, e3⟩
    · have := hb ⟨0, by omega⟩
      rw [(hv 0 (by omega)).2] at this
      cases this
    · rw [e1]
      have hvs : (fun j : Fin P.shares => v j) = vs' := by
        funext j
        exact Except.ok.inj ((hv j j.2).2.symm.trans (e2 j))
      rw [← hvs] at e3
      have hl : v'.length = P.flp.verifierLen := by
        rw [← e3.1 ⟨0, by omega⟩]; exact (hlen 0 (by omega)).2.2.2.2
      congr 1
      apply list_eq_of_coef (by simp [hl])
      intro k hk
      rw [coef_tab, if_pos (hl ▸ hk), (isSum_iff.1 e3).2 k, ← Fin.sum_univ_eq_sum_range fun j => coef (sh j).1 k]
      refine sum_congr rfl fun j _ => ?_
      obtain ⟨l, hl'⟩ := (hv j j.2).1
      rw [hl', coef_append, if_pos]
      rw [(hlen j j.2).2.2.2.2]; omega

theorem Library.single {V : Valid F Meas Agg} {fn : Spec.Fun Meas Agg} (hV : Spec.Library F V fn) : V.num = 1 := by
  cases hV with
  | count => rfl
  | sum h0 h => obtain ⟨h1, G, hG, rfl⟩ := Sum_ok h; rfl
  | sumVec h => obtain ⟨h1, h2, h3, h4, rfl⟩ := SumVec_ok h; rfl
  | histogram _ h => obtain ⟨h1, h2, rfl⟩ := Histogram_ok h; rfl
  | multihot h => obtain ⟨h1, h2, h3, h4, h5, rfl⟩ := MultihotCountVec_ok h; rfl

theorem Library.calls_mem {V : Valid F Meas Agg} {fn : Spec.Fun Meas Agg} (hV : Spec.Library F V fn) :
    V.calls 0 ∈ V.gadgetCalls := by
  cases hV with
  | count => exact List.mem_singleton.2 rfl
  | sum h0 h => obtain ⟨h1, G, hG, rfl⟩ := Sum_ok h; exact List.mem_singleton.2 rfl
  | sumVec h => obtain ⟨h1, h2, h3, h4, rfl⟩ := SumVec_ok h; exact List.mem_singleton.2 rfl
  | histogram _ h => obtain ⟨h1, h2, rfl⟩ := Histogram_ok h; exact List.mem_singleton.2 rfl
  | multihot h => obtain ⟨h1, h2, h3, h4, h5, rfl⟩ := MultihotCountVec_ok h; exact List.mem_singleton.2 rfl

theorem reuse {prims : Prims} {fuel : ℕ} {P : Prio3 (XofTurboShake128 prims fuel) F Meas Agg} {fn : Spec.Fun Meas Agg}
    (I : Spec.Instance P fn) (hp : 0 < P.proofs) {ctx nonce : Bytes} {n : ℕ}
    (hn : ∀ c ∈ P.flp.gadgetCalls, ∃ p ≤ n, wirePolyLen c = .ok p) {vk : ℕ → Bytes}
    (hpts : ∀ k < n, ∀ k' < n, k ≠ k' → ∀ q q', Spec.queryRands P (vk k) ctx nonce = .ok q →
      Spec.queryRands P (vk k') ctx nonce = .ok q' →
      (Spec.piece P.flp.queryRandLen q 0).getLast? ≠ (Spec.piece P.flp.queryRandLen q' 0).getLast?)
    {ish ish' : ℕ → Prio3InputShare F} {ms ps ms' ps' : ℕ → List F} {bl bl' : ℕ → Option Bytes}
    (hexp : ∀ j < P.shares, Spec.Expands P ctx j (ish j) (ms j) (ps j) (bl j))
    (hexp' : ∀ j < P.shares, Spec.Expands P ctx j (ish' j) (ms' j) (ps' j) (bl' j))
    {pub pub' : Option (List Bytes)} {st sh st' sh' : ℕ → ℕ → List F × Option Bytes} {msg msg' : ℕ → Option Bytes}
    (h : ∀ k < n, Spec.VerifySucceeds P (vk k) ctx nonce pub ish (st k) (sh k) (msg k))
    (h' : ∀ k < n, Spec.VerifySucceeds P (vk k) ctx nonce pub' ish' (st' k) (sh' k) (msg' k))
    (hsame : ∀ k < n, ∀ v, Spec.IsSum (fun j : Fin P.shares => (sh k j).1) v →
      Spec.IsSum (fun j : Fin P.shares => (sh' k j).1) v) {e e' : List F}
    (he : Spec.IsSum (fun j : Fin P.shares => ms j) e) (he' : Spec.IsSum (fun j : Fin P.shares => ms' j) e') :
    e = e' := by
  have W := I.wf
  have hN := W.shares_ge
  have hsl := W.shares_lt
  have hnum := Library.single I.library
  have hn2 : 2 ^ P.flp.L 0 ≤ n := by
    obtain ⟨p, h1, h2⟩ := hn _ (Library.calls_mem I.library)
    rw [Valid.wirePolyLen_eq] at h2
    cases h2
    exact h1
  have hexp := fun j hj => expandInputShare_of W.id W.proofs (by omega) (hexp j hj)
  have hexp' := fun j hj => expandInputShare_of W.id W.proofs (by omega) (hexp' j hj)
  have H := fun k hk => first_query W hp hexp (h k hk)
  have H' := fun k hk => first_query W hp hexp' (h' k hk)
  have hpos : 0 < 2 ^ P.flp.L 0 := by positivity
  obtain ⟨jrs, -, g1, -, g3, -, g5, -⟩ := H 0 (by omega)
  obtain ⟨jrs', -, g1', -, g3', -, g5', -⟩ := H' 0 (by omega)
  have hqr : ∀ k, ∃ qr : List F, k < n → (∃ qrs, Spec.queryRands P (vk k) ctx nonce = .ok qrs ∧
      qr = blk P.flp.queryRandLen qrs 0) ∧ qr.length = P.flp.queryRandLen ∧
      P.flp.query (tab P.flp.measLen fun k => ∑ j ∈ range P.shares, coef (ms j) k)
        (tab P.proofLen fun k => ∑ j ∈ range P.shares, coef (blk P.proofLen (ps j) 0) k)
        qr (blk P.flp.jointRandLen jrs 0) 1 =
        .ok (tab P.flp.verifierLen fun i => ∑ j ∈ range P.shares, coef (sh k j).1 i) ∧
      P.flp.query (tab P.flp.measLen fun k => ∑ j ∈ range P.shares, coef (ms' j) k)
        (tab P.proofLen fun k => ∑ j ∈ range P.shares, coef (blk P.proofLen (ps' j) 0) k)
        qr (blk P.flp.jointRandLen jrs' 0) 1 =
        .ok (tab P.flp.verifierLen fun i => ∑ j ∈ range P.shares, coef (sh k j).1 i) := by
    intro k
    by_cases hk : k < n
    · obtain ⟨j1, q1, a1, a2, -, a4, -, a6⟩ := H k hk
      obtain ⟨j2, q2, b1, b2, -, b4, -, b6⟩ := H' k hk
      rw [a2] at b2
      obtain rfl := Except.ok.inj b2
      rw [a1.unique g1] at a6
      rw [b1.unique g1'] at b6
      refine ⟨_, fun _ => ⟨⟨q1, a2, rfl⟩, a4, a6, ?_⟩⟩
      rw [b6]
      refine congrArg Except.ok (tab_congr fun i _ => ?_)
      have hl := sharesToMessage_lengths (h k hk).2.1
      have hs := isSum_range (w := fun j => (sh k j).1) fun j hj => hl (sh k j) (List.mem_map.2 ⟨j, by simpa using hj, rfl⟩)
      have hs' := hsame k hk _ hs
      have c1 := (isSum_iff.1 hs).2 i
      have c2 := (isSum_iff.1 hs').2 i
      rw [c1, Fin.sum_univ_eq_sum_range (fun j => coef (sh k j).1 i), Fin.sum_univ_eq_sum_range (fun j => coef (sh' k j).1 i)] at c2
      exact c2.symm
    · exact ⟨[], fun h => absurd h hk⟩
  choose qr hqr using hqr
  have hpl := W.lawful.proofLen_eq
  rw [W.proofLen] at hpl
  have hpl := Except.ok.inj hpl
  have hql : ∀ k < n, coef (qr k) (Valid.toff P.flp.evalOutputLen + 0) = (qr k).getLast?.getD 0 := by
    intro k hk
    rw [List.getLast?_eq_getElem?, (hqr k hk).2.1]
    unfold coef
    rw [List.getD_eq_getElem?_getD]
    congr 2
    have : P.flp.gadgets.length = 1 := hnum
    unfold Valid.queryRandLen Valid.toff
    split <;> omega
  obtain ⟨out, log, out', log', t1, t2, t3⟩ := W.lawful.wires (g := 0) (by omega) (jr := blk P.flp.jointRandLen jrs 0)
    (jr' := blk P.flp.jointRandLen jrs' 0)
    (π := tab P.proofLen fun k => ∑ j ∈ range P.shares, coef (blk P.proofLen (ps j) 0) k)
    (π' := tab P.proofLen fun k => ∑ j ∈ range P.shares, coef (blk P.proofLen (ps' j) 0) k) (qr := qr)
    (v := fun k => tab P.flp.verifierLen fun i => ∑ j ∈ range P.shares, coef (sh k j).1 i)
    (tab_length _ _) (by rw [← hpl]; simp) g5 (tab_length _ _) (by rw [← hpl]; simp) g5'
    (fun k hk => (hqr k (by omega)).2.1) (by
      intro k hk k' hk' hkk
      by_contra hne
      obtain ⟨⟨q, e1, e2⟩, e3, -⟩ := hqr k (by omega)
      obtain ⟨⟨q', e1', e2'⟩, e3', -⟩ := hqr k' (by omega)
      refine hpts k (by omega) k' (by omega) hne q q' e1 e1' ?_
      rw [hql k (by omega), hql k' (by omega)] at hkk
      change (blk P.flp.queryRandLen q 0).getLast? = (blk P.flp.queryRandLen q' 0).getLast?
      rw [← e2, ← e2']
      have hp1 : ∀ l : List F, l.length = P.flp.queryRandLen → ∃ x, l.getLast? = some x := by
        intro l hl
        have : P.flp.gadgets.length = 1 := hnum
        have : 0 < l.length := by rw [hl]; unfold Valid.queryRandLen; omega
        exact ⟨_, List.getLast?_eq_some_getLast (List.length_pos_iff.1 this)⟩
      obtain ⟨x, hx⟩ := hp1 _ e3
      obtain ⟨x', hx'⟩ := hp1 _ e3'
      rw [hx, hx'] at hkk
      rw [hx, hx']
      exact congrArg some hkk)
    (fun k hk => (hqr k (by omega)).2.2.1) (fun k hk => (hqr k (by omega)).2.2.2)
  have hm := Library.inputs I.library (tab_length _ _) g5 (tab_length _ _) g5' t1 t2 t3
  have hs := isSum_range g3
  have hs' := isSum_range g3'
  rw [IsSum.unique he hs (by rw [← he.1 ⟨0, by omega⟩, ← hs.1 ⟨0, by omega⟩]),
    IsSum.unique he' hs' (by rw [← he'.1 ⟨0, by omega⟩, ← hs'.1 ⟨0, by omega⟩]), hm]

end Prio3
end Vdaf
