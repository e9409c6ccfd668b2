import Verif.Proofs.TestVectorsMain
import Verif.Proofs.PingPongRun

/-! What the generator returns; the order of the operations. -/

namespace Vdaf.TestVectors

section
variable {Meas AggParam PubShare InShare OutShare AggShare AggRes VState VShare VMsg : Type}
variable {V : VdafImpl Meas AggParam PubShare InShare OutShare AggShare AggRes VState VShare VMsg}
variable {C : ShareCodec AggParam OutShare AggShare}
variable {tv : TestVec Meas AggRes} {key ctx apb : Bytes} {a : AggParam} {Rs : List (Meas × Bytes × Bytes)} {r : ℕ}

/-- `h` was produced by `hex`. -/
def IsHex (h : Hex) : Prop := ∃ b, h = hex b

theorem IsHex.same {h : Hex} (hh : IsHex h) : Spec.SameBytes h h := by
  obtain ⟨b, rfl⟩ := hh
  exact same_hex.2 (fromHex_hex b)

theorem listed_refl {l : List Hex} (h : ∀ x ∈ l, IsHex x) : Spec.Listed l l :=
  fun _ x hx => ⟨x, hx, (h x (List.mem_of_getElem? hx)).same⟩

theorem row_ok {l : List Hex} (h : ∀ x ∈ l, IsHex x) : ∃ bs, mapRes fromHex l = .ok bs := by
  refine mapRes_ok_of _ _ fun x hx => ?_
  obtain ⟨b, rfl⟩ := h x hx
  exact ⟨b, fromHex_hex b⟩

theorem report_refl (hr : 0 < V.rounds) {R : Meas × Bytes × Bytes} {x : Report Meas × List Operation × List OutShare}
    (hx : genReport V C key ctx a r R = .ok x) : Spec.ReportListed x.1 x.1 ∧ ∀ n, RowsDecode n x.1 := by
  obtain ⟨hlen, pub, ins, pb, ibs, s0, s, msg, m, h2, h3, h23, h7, h12, h17, h18, outs, h20, h21, rfl⟩ := genReport_iff.1 hx
  have hs : ∀ n s, forFold (List.range n) s0 (fun s i => genRound V ctx a r s i) = .ok s →
      GInv V key ctx a R.2.1 pub ins n s ∧ (∀ row ∈ s.rows, ∀ x ∈ row, IsHex x) ∧ ∀ x ∈ s.messages, IsHex x := by
    intro n
    induction n with
    | zero =>
      intro s h
      cases h
      refine ⟨ginv_init hr h7, ?_⟩
      obtain ⟨outs, -, -, rfl⟩ := (genInit_iff hr).1 h7
      simp only [List.mem_singleton, List.not_mem_nil, false_implies, implies_true, and_true]
      rintro _ rfl x hx
      obtain ⟨o, -, rfl⟩ := List.mem_map.1 hx
      exact ⟨_, rfl⟩
    | succ n ih =>
      intro s h
      rw [List.range_succ, forFold_append, Except.bind_eq_ok] at h
      obtain ⟨s2, h5, h6⟩ := h
      rw [forFold_cons, Except.bind_eq_ok] at h6
      obtain ⟨s3, h6, h7⟩ := h6
      cases h7
      obtain ⟨g1, g2, g3⟩ := ih _ h5
      refine ⟨ginv_round g1 h6, ?_⟩
      obtain ⟨msg, m, -, -, outs, -, -, rfl⟩ := (genRound_iff g1.states).1 h6
      dsimp only
      constructor
      · intro row hrow x hx
        rcases List.mem_append.1 hrow with h | h
        · exact g2 row h x hx
        · rw [List.mem_singleton.1 h] at hx
          obtain ⟨o, -, rfl⟩ := List.mem_map.1 hx
          exact ⟨_, rfl⟩
      · intro x hx
        rcases List.mem_append.1 hx with h | h
        · exact g3 x h
        · rw [List.mem_singleton.1 h]
          exact ⟨_, rfl⟩
  obtain ⟨-, g1, g2⟩ := hs _ _ h12
  refine ⟨⟨rfl, IsHex.same ⟨_, rfl⟩, IsHex.same ⟨_, rfl⟩, IsHex.same ⟨_, rfl⟩, ?_, ?_, ?_, ?_⟩, ?_⟩
  · rw [List.forall₂_same]
    intro x hx
    obtain ⟨o, -, rfl⟩ := List.mem_map.1 hx
    exact IsHex.same ⟨_, rfl⟩
  · intro k row hrow
    exact ⟨row, hrow, listed_refl (g1 row (List.mem_of_getElem? hrow))⟩
  · refine listed_refl fun x hx => ?_
    rcases List.mem_append.1 hx with h | h
    · exact g2 x h
    · rw [List.mem_singleton.1 h]
      exact ⟨_, rfl⟩
  · refine listed_refl fun x hx => ?_
    obtain ⟨o, -, rfl⟩ := List.mem_map.1 hx
    exact ⟨_, rfl⟩
  · intro n k _ row hrow
    exact row_ok (g1 row (List.mem_of_getElem? hrow))

theorem gen_refl (hr : 0 < V.rounds) (hap : ∀ b, V.encodeAggParam a = .ok b → V.decodeAggParam b = .ok a)
    (hgen : genTestVecWith V C key a ctx Rs = .ok tv) :
    Spec.VectorListed tv tv ∧ Spec.Inputs V tv key a ctx Rs ∧ ∀ rep ∈ tv.reports, ∀ n, RowsDecode n rep := by
  obtain ⟨ap, xs, aggs, res, h1, ⟨h2, h3⟩, ⟨h4, h4'⟩, h5, rfl⟩ := genTestVecWith_iff.1 hgen
  refine ⟨⟨IsHex.same ⟨_, rfl⟩, IsHex.same ⟨_, rfl⟩, IsHex.same ⟨_, rfl⟩, ?_, ?_, rfl⟩,
    ⟨fromHex_hex _, ⟨ap, fromHex_hex _, hap _ h1⟩, fromHex_hex _, ?_⟩, ?_⟩
  · rw [List.forall₂_same]
    intro x hx
    obtain ⟨y, hy, rfl⟩ := List.mem_map.1 hx
    obtain ⟨i, hi, rfl⟩ := List.mem_iff_getElem.1 hy
    exact (report_refl hr (h3 i (by omega) hi)).1
  · rw [List.forall₂_same]
    intro x hx
    obtain ⟨y, hy, rfl⟩ := List.mem_map.1 hx
    obtain ⟨i, hi, rfl⟩ := List.mem_iff_getElem.1 hy
    obtain ⟨_, b, -, -, -, h⟩ := h4' i hi
    exact IsHex.same ⟨b, h⟩
  · rw [List.forall₂_iff_get]
    refine ⟨by simp [h2], fun i hi hi' => ?_⟩
    simp only [List.length_map] at hi'
    simp only [List.get_eq_getElem, List.getElem_map]
    obtain ⟨-, -, ⟨g1, g2, g3⟩, -⟩ := genReport_inv hr (h3 i hi hi')
    rw [g1, g2, g3]
    exact ⟨rfl, fromHex_hex _, fromHex_hex _⟩
  · intro rep hrep n
    obtain ⟨y, hy, rfl⟩ := List.mem_map.1 hrep
    obtain ⟨i, hi, rfl⟩ := List.mem_iff_getElem.1 hy
    exact (report_refl hr (h3 i (by omega) hi)).2 n

/-- The states and verifier shares of the generator are those of `run_vdaf`. -/
theorem genReport_outShares (hr : 0 < V.rounds) {R : Meas × Bytes × Bytes}
    {x : Report Meas × List Operation × List OutShare} (hx : genReport V C key ctx a r R = .ok x) :
    Spec.outShares V key a ctx R = .ok x.2.2 := by
  obtain ⟨hlen, pub, ins, pb, ibs, s0, s, msg, m, h2, h3, h23, h7, h12, h17, h18, outs, h20, h21, rfl⟩ := genReport_iff.1 hx
  obtain ⟨meas, nonce, rand⟩ := R
  have hrun : ∀ n s, forFold (List.range n) s0 (fun s i => genRound V ctx a r s i) = .ok s →
      GInv V key ctx a nonce pub ins n s ∧
      forFold (List.range n) (s0.states, s0.shares) (fun st _ => V.runRound ctx a st) = .ok (s.states, s.shares) := by
    intro n
    induction n with
    | zero =>
      intro s h
      cases h
      exact ⟨ginv_init hr h7, rfl⟩
    | succ n ih =>
      intro s h
      rw [List.range_succ, forFold_append, Except.bind_eq_ok] at h
      obtain ⟨s2, h5, h6⟩ := h
      rw [forFold_cons, Except.bind_eq_ok] at h6
      obtain ⟨s3, h6, h7⟩ := h6
      cases h7
      obtain ⟨g1, g2⟩ := ih _ h5
      refine ⟨ginv_round g1 h6, ?_⟩
      rw [List.range_succ, forFold_append, g2, Except.ok_bind', forFold_cons]
      obtain ⟨msg, m, g3, -, outs, g4, g5, rfl⟩ := (genRound_iff g1.states).1 h6
      unfold VdafImpl.runRound
      have : mapRes (fun j => do
          let s ← getI s2.states j
          V.verifyNextTuple ctx s msg) (List.range V.shares) = .ok (outs.map fun o => (o.1, o.2.1)) := by
        rw [mapRes_range_iff]
        refine ⟨by simpa using g4, fun j hj => ?_⟩
        have hs := g1.states
        refine ⟨(outs[j].1, outs[j].2.1), ?_, by rw [List.getElem?_map, List.getElem?_eq_getElem (by omega)]; rfl⟩
        unfold VdafImpl.verifyNextTuple
        rw [getI_of_lt (by omega), Except.ok_bind', (g5 j (by omega) (by omega)).1]
        rfl
      dsimp only
      rw [g3, Except.ok_bind', this]
      simp only [Except.ok_bind', Except.pure_eq', List.map_map]
      rfl
  obtain ⟨g1, g2⟩ := hrun _ _ h12
  rw [PingPong.outShares_eq]
  dsimp only at h2
  rw [h2, Except.ok_bind']
  dsimp only
  unfold Spec.broadcast
  obtain ⟨o0, k1, k2, hs0⟩ := (genInit_iff hr).1 h7
  have hinit : mapRes (fun j => do
      let inputShare ← getI ins j
      V.verifyInit key ctx j a nonce pub inputShare) (List.range V.shares) = .ok (o0.map fun o => (o.1, o.2.1)) := by
    rw [mapRes_range_iff]
    refine ⟨by simpa using k1, fun j hj => ?_⟩
    obtain ⟨x, k3, k4, -⟩ := k2 j (by omega)
    refine ⟨(o0[j].1, o0[j].2.1), ?_, by rw [List.getElem?_map, List.getElem?_eq_getElem (by omega)]; rfl⟩
    rw [getI_of_some k3, Except.ok_bind', k4]
  rw [hinit, Except.ok_bind']
  simp only [List.map_map]
  rw [show List.map (Prod.fst ∘ fun o : VState × VShare × Bytes => (o.1, o.2.1)) o0 = s0.states by rw [hs0]; rfl,
    show List.map (Prod.snd ∘ fun o : VState × VShare × Bytes => (o.1, o.2.1)) o0 = s0.shares by rw [hs0]; rfl,
    g2, Except.ok_bind']
  dsimp only
  rw [h17, Except.ok_bind', mapRes_range_iff]
  refine ⟨by simpa using h20, fun j hj => ?_⟩
  obtain ⟨st, k3, k4, -⟩ := h21 j (by omega)
  refine ⟨outs[j].1, ?_, by rw [List.getElem?_map, List.getElem?_eq_getElem (by omega)]; rfl⟩
  unfold VdafImpl.verifyNextOut
  rw [getI_of_some k3, Except.ok_bind', k4]
  rfl

theorem gen_separately (hr : 0 < V.rounds) (hgen : genTestVecWith V C key a ctx Rs = .ok tv) :
    ∃ res, tv.aggResult = some res ∧ Spec.separately V key a ctx Rs = .ok res := by
  obtain ⟨ap, xs, aggs, res, h1, ⟨h2, h3⟩, ⟨h4, h4'⟩, h5, rfl⟩ := genTestVecWith_iff.1 hgen
  refine ⟨res, rfl, ?_⟩
  unfold Spec.separately
  have : mapRes (Spec.outShares V key a ctx) Rs = .ok (xs.map (·.2.2)) := by
    rw [mapRes_ok_iff, List.forall₂_iff_get]
    refine ⟨by simp [h2], fun i hi hi' => ?_⟩
    simp only [List.length_map] at hi'
    simp only [List.get_eq_getElem, List.getElem_map]
    exact genReport_outShares hr (h3 i hi hi')
  rw [this, Except.ok_bind']
  have : mapRes (fun j => do
      let own ← mapRes (fun o => getI o j) (xs.map (·.2.2))
      Spec.aggregate V a own) (List.range V.shares) = .ok (aggs.map (·.1)) := by
    rw [mapRes_range_iff]
    refine ⟨by simpa using h4, fun j hj => ?_⟩
    obtain ⟨own, b, k1, k2, -, -⟩ := h4' j (by omega)
    refine ⟨aggs[j].1, ?_, by rw [List.getElem?_map, List.getElem?_eq_getElem (by omega)]; rfl⟩
    rw [k1, Except.ok_bind', k2]
  rw [this, Except.ok_bind']
  exact h5

/-! ## The generator succeeds -/

theorem genRound_ok (hE : Spec.Encodes V C key a ctx Rs) {nonce : Bytes} {pub : PubShare} {ins : List InShare} {k : ℕ}
    {s : GenState VState VShare} (hs : GInv V key ctx a nonce pub ins k s) {st : List VState × List VShare}
    (h : V.runRound ctx a (s.states, s.shares) = .ok st) :
    ∃ s', genRound V ctx a r s k = .ok s' ∧ (s'.states, s'.shares) = st := by
  unfold VdafImpl.runRound at h
  dsimp only at h
  rw [Except.bind_eq_ok] at h
  obtain ⟨msg, h1, h⟩ := h
  rw [Except.bind_eq_ok] at h
  obtain ⟨outs, h2, h⟩ := h
  cases h
  have hst := hs.states
  have hsh := hs.shares
  obtain ⟨m, h3⟩ := hE.verifierMessage _ _ _ _ _ _ _ hs.states hs.shares hs.held h1
  rw [mapRes_range_iff] at h2
  obtain ⟨h4, h5⟩ := h2
  have h6 : ∀ j (hj : j < outs.length) (h' : j < s.states.length),
      V.verifyNext ctx s.states[j] msg = .ok (.cont outs[j].1 outs[j].2) := by
    intro j hj h'
    obtain ⟨b, h6, h7⟩ := h5 j (by omega)
    rw [List.getElem?_eq_getElem hj] at h7
    cases h7
    rw [getI_of_lt h', Except.ok_bind'] at h6
    unfold VdafImpl.verifyNextTuple at h6
    rw [Except.bind_eq_ok] at h6
    obtain ⟨o, h6, h7⟩ := h6
    cases o with
    | out o => cases h7
    | cont st sh =>
      rw [h6]
      have := Except.ok.inj h7
      rw [← this]
  obtain ⟨l, h7, h8⟩ := exists_list (n := V.shares) (P := fun j (x : VState × VShare × Bytes) =>
    ∀ hj : j < outs.length, x.1 = outs[j].1 ∧ x.2.1 = outs[j].2 ∧ V.encodeVerifierShare x.2.1 = .ok x.2.2) (by
      intro j hj
      obtain ⟨i, -, hh⟩ := hs.held j (by omega) (by omega)
      obtain ⟨b, hb⟩ := hE.verifierShare _ _ _ _ _ _ _ hj (hh.next (h6 j (by omega) (by omega)))
      exact ⟨(outs[j].1, outs[j].2, b), fun _ => ⟨rfl, rfl, hb⟩⟩)
  refine ⟨_, (genRound_iff hs.states).2 ⟨msg, m, h1, h3, l, h7, fun j hj h' => ?_, rfl⟩, ?_⟩
  · obtain ⟨k1, k2, k3⟩ := h8 j hj (by omega)
    refine ⟨?_, k3⟩
    rw [k1, k2]
    exact h6 j (by omega) h'
  · dsimp only
    refine Prod.ext ?_ ?_
    · refine List.ext_getElem (by simp [h7, h4]) fun j hj hj' => ?_
      simp only [List.length_map] at hj hj'
      simp only [List.getElem_map]
      exact (h8 j hj hj').1
    · refine List.ext_getElem (by simp [h7, h4]) fun j hj hj' => ?_
      simp only [List.length_map] at hj hj'
      simp only [List.getElem_map]
      exact (h8 j hj hj').2.1

theorem genReport_ok (hE : Spec.Encodes V C key a ctx Rs) (hr : 0 < V.rounds) {R : Meas × Bytes × Bytes} (hR : R ∈ Rs)
    (hn : R.2.1.length = V.nonceSize) {os : List OutShare} (h : Spec.outShares V key a ctx R = .ok os) :
    ∃ x, genReport V C key ctx a r R = .ok x := by
  obtain ⟨meas, nonce, rand⟩ := R
  rw [PingPong.outShares_eq, Except.bind_eq_ok] at h
  obtain ⟨⟨pub, ins⟩, h1, h⟩ := h
  dsimp only at h
  unfold Spec.broadcast at h
  rw [Except.bind_eq_ok] at h
  obtain ⟨outs, h2, h⟩ := h
  rw [Except.bind_eq_ok] at h
  obtain ⟨⟨sts, shs⟩, h3, h⟩ := h
  dsimp only at h
  rw [Except.bind_eq_ok] at h
  obtain ⟨msg, h4, h5⟩ := h
  obtain ⟨pb, hpb⟩ := hE.publicShare _ hR _ _ h1
  obtain ⟨ibs, hibs⟩ := mapRes_ok_of V.encodeInputShare ins (hE.inputShare _ hR _ _ h1)
  rw [mapRes_ok_iff] at hibs
  obtain ⟨h6, h7⟩ := mapRes_range_iff.1 h2
  have h8 : ∀ j (hj : j < outs.length), ∃ i, ins[j]? = some i ∧
      V.verifyInit key ctx j a nonce pub i = .ok (outs[j].1, outs[j].2) := by
    intro j hj
    obtain ⟨b, h8, h9⟩ := h7 j (by omega)
    rw [List.getElem?_eq_getElem hj] at h9
    cases h9
    rw [Except.bind_eq_ok] at h8
    obtain ⟨i, h8, h9⟩ := h8
    exact ⟨i, getI_eq_ok.1 h8, h9⟩
  obtain ⟨l, l1, l2⟩ := exists_list (n := V.shares) (P := fun j (x : VState × VShare × Bytes) =>
    ∀ hj : j < outs.length, x.1 = outs[j].1 ∧ x.2.1 = outs[j].2 ∧ V.encodeVerifierShare x.2.1 = .ok x.2.2) (by
      intro j hj
      obtain ⟨i, -, hh⟩ := h8 j (by omega)
      obtain ⟨b, hb⟩ := hE.verifierShare _ _ _ _ _ _ _ hj (.init hh)
      exact ⟨(outs[j].1, outs[j].2, b), fun _ => ⟨rfl, rfl, hb⟩⟩)
  have h9 := (genInit_iff (r := r) hr).2 ⟨l, l1, fun j hj => by
    obtain ⟨i, k1, k2⟩ := h8 j (by omega)
    obtain ⟨k3, k4, k5⟩ := l2 j hj (by omega)
    refine ⟨i, k1, ?_, k5⟩
    rw [k3, k4]
    exact k2, rfl⟩
  set s0 : GenState VState VShare := { states := l.map (·.1), shares := l.map (·.2.1), rows := [l.map fun o => hex o.2.2]
                                       messages := []
                                       ops := (List.range V.shares).map fun j => .verifyInit j r true } with hs0
  have h10 : (outs.map Prod.fst, outs.map Prod.snd) = (s0.states, s0.shares) := by
    refine Prod.ext ?_ ?_
    · refine List.ext_getElem (by simp [hs0, l1, h6]) fun j hj hj' => ?_
      simp only [hs0, List.length_map] at hj hj'
      simp only [hs0, List.getElem_map]
      exact (l2 j hj' hj).1.symm
    · refine List.ext_getElem (by simp [hs0, l1, h6]) fun j hj hj' => ?_
      simp only [hs0, List.length_map] at hj hj'
      simp only [hs0, List.getElem_map]
      exact (l2 j hj' hj).2.1.symm
  rw [h10] at h3
  have hrun : ∀ n st, forFold (List.range n) (s0.states, s0.shares) (fun st _ => V.runRound ctx a st) = .ok st →
      ∃ s, forFold (List.range n) s0 (fun s i => genRound V ctx a r s i) = .ok s ∧
        GInv V key ctx a nonce pub ins n s ∧ (s.states, s.shares) = st := by
    intro n
    induction n with
    | zero =>
      intro st h
      cases h
      exact ⟨s0, rfl, ginv_init hr h9, rfl⟩
    | succ n ih =>
      intro st h
      rw [List.range_succ, forFold_append, Except.bind_eq_ok] at h
      obtain ⟨st1, k1, k2⟩ := h
      rw [forFold_cons, Except.bind_eq_ok] at k2
      obtain ⟨st2, k2, k3⟩ := k2
      cases k3
      obtain ⟨s, k4, k5, rfl⟩ := ih _ k1
      obtain ⟨s', k6, k7⟩ := genRound_ok hE k5 k2
      refine ⟨s', ?_, ginv_round k5 k6, k7⟩
      rw [List.range_succ, forFold_append, k4, Except.ok_bind', forFold_cons, k6]
      rfl
  obtain ⟨s, k1, k2, k3⟩ := hrun _ _ h3
  have k4 : s.states = sts := congrArg Prod.fst k3
  have k5 : s.shares = shs := congrArg Prod.snd k3
  subst k4 k5
  obtain ⟨m, hm⟩ := hE.verifierMessage _ _ _ _ _ _ _ k2.states k2.shares k2.held h4
  have hst := k2.states
  have hsh := k2.shares
  obtain ⟨k6, k7⟩ := mapRes_range_iff.1 h5
  obtain ⟨lo, lo1, lo2⟩ := exists_list (n := V.shares) (P := fun j (x : OutShare × Bytes) =>
    ∃ st, s.states[j]? = some st ∧ V.verifyNext ctx st msg = .ok (.out x.1) ∧ C.encodeOutShare x.1 = .ok x.2) (by
      intro j hj
      obtain ⟨o, k8, k9⟩ := k7 j hj
      rw [getI_of_lt (by omega), Except.ok_bind'] at k8
      unfold VdafImpl.verifyNextOut at k8
      rw [Except.bind_eq_ok] at k8
      obtain ⟨x, k8, k10⟩ := k8
      cases x with
      | cont _ _ => cases k10
      | out o' =>
        cases k10
        obtain ⟨i, -, hh⟩ := k2.held j (by omega) (by omega)
        obtain ⟨b, hb⟩ := hE.outShare _ _ _ _ _ _ _ _ _ hj hh k8
        exact ⟨(o, b), _, List.getElem?_eq_getElem (by omega), k8, hb⟩)
  exact ⟨_, genReport_iff.2 ⟨hn, pub, ins, pb, ibs, s0, s, msg, m, h1, hpb, hibs, h9, k1, h4, hm, lo, lo1, lo2, rfl⟩⟩

theorem gen_ok (hE : Spec.Encodes V C key a ctx Rs) (hr : 0 < V.rounds)
    (hn : ∀ R ∈ Rs, R.2.1.length = V.nonceSize) {res : AggRes} (h : Spec.separately V key a ctx Rs = .ok res) :
    ∃ tv : TestVec Meas AggRes, genTestVecWith V C key a ctx Rs = .ok tv := by
  unfold Spec.separately at h
  rw [Except.bind_eq_ok] at h
  obtain ⟨outs, h1, h⟩ := h
  rw [Except.bind_eq_ok] at h
  obtain ⟨aggs, h2, h3⟩ := h
  obtain ⟨ap, hap⟩ := hE.aggParam
  have h1' := (List.forall₂_iff_get.1 ((mapRes_ok_iff _ _ _).1 h1))
  obtain ⟨xs, h4, h5⟩ := exists_list (n := Rs.length) (P := fun r x => ∀ (h : r < Rs.length) (h' : r < outs.length),
    genReport V C key ctx a r Rs[r] = .ok x ∧ x.2.2 = outs[r]) (by
      intro r hr'
      have h4 := h1'.2 r hr' (by rw [← h1'.1]; exact hr')
      obtain ⟨x, hx⟩ := genReport_ok (r := r) hE hr (List.getElem_mem hr') (hn _ (List.getElem_mem hr')) h4
      refine ⟨x, fun _ _ => ⟨hx, ?_⟩⟩
      have := genReport_outShares hr hx
      simp only [List.get_eq_getElem] at h4
      rw [h4] at this
      exact (Except.ok.inj this).symm)
  have hlen := h1'.1
  have h6 : xs.map (·.2.2) = outs := by
    refine List.ext_getElem (by simp; omega) fun j hj hj' => ?_
    simp only [List.length_map] at hj
    simp only [List.getElem_map]
    exact (h5 j hj (by omega) hj').2
  obtain ⟨h7, h8⟩ := mapRes_range_iff.1 h2
  obtain ⟨l, l1, l2⟩ := exists_list (n := V.shares) (P := fun j (x : AggShare × Hex) => ∃ own b,
      mapRes (fun out => getI out j) (xs.map (·.2.2)) = .ok own ∧ Spec.aggregate V a own = .ok x.1 ∧
        C.encodeAggShare x.1 = .ok b ∧ x.2 = hex b ∧ aggs[j]? = some x.1) (by
      intro j hj
      obtain ⟨ag, h9, h10⟩ := h8 j hj
      rw [Except.bind_eq_ok] at h9
      obtain ⟨own, h9, h11⟩ := h9
      obtain ⟨b, hb⟩ := hE.aggShare _ _ h11
      refine ⟨(ag, hex b), own, b, ?_, h11, hb, rfl, h10⟩
      rw [h6]
      exact h9)
  have h9 : l.map (·.1) = aggs := by
    refine List.ext_getElem (by simp; omega) fun j hj hj' => ?_
    simp only [List.length_map] at hj
    simp only [List.getElem_map]
    obtain ⟨_, _, -, -, -, -, h⟩ := l2 j hj
    rw [List.getElem?_eq_getElem hj'] at h
    exact (Option.some.inj h).symm
  refine ⟨_, genTestVecWith_iff.2 ⟨ap, xs, l, res, hap, ⟨h4, fun r h h' => (h5 r h' h (by omega)).1⟩, ⟨l1, fun j hj => ?_⟩,
    ?_, rfl⟩⟩
  · obtain ⟨own, b, k1, k2, k3, k4, -⟩ := l2 j hj
    exact ⟨own, b, k1, k2, k3, k4⟩
  · rw [h9]
    exact h3

/-! ## The order -/

section
variable [DecidableEq AggRes] {S S' : States VState}

omit [DecidableEq AggRes] in
theorem getState_some {r j k : ℕ} {st : VState} (h : getState V S r j k = .ok st) : S r j k = some st := by
  unfold getState at h
  rw [Except.bind_eq_ok] at h
  obtain ⟨_, -, h⟩ := h
  split at h
  · cases h
    assumption
  · cases h

theorem op_consumes {op : Operation} {r j k : ℕ} (hj : j < V.shares) (h : checkOperation V C tv S op = .ok S')
    (hc : Spec.Consumes op r j k) : S r j k ≠ none := by
  rcases hc with ⟨b, rfl⟩ | ⟨b, rfl⟩
  · unfold checkOperation at h
    dsimp only at h
    rw [Except.bind_eq_ok] at h; obtain ⟨_, -, h⟩ := h
    rw [Except.bind_eq_ok] at h; obtain ⟨_, -, h⟩ := h
    rw [Except.bind_eq_ok] at h; obtain ⟨_, -, h⟩ := h
    rw [Except.bind_eq_ok] at h; obtain ⟨sts, h1, -⟩ := h
    obtain ⟨st, h2, -⟩ := (mapRes_range_iff.1 h1).2 j hj
    rw [getState_some h2]
    simp
  · unfold checkOperation at h
    dsimp only at h
    rw [Except.bind_eq_ok] at h; obtain ⟨_, -, h⟩ := h
    rw [Except.bind_eq_ok] at h; obtain ⟨_, -, h⟩ := h
    rw [if_neg (by omega)] at h
    rw [Nat.add_sub_cancel, Except.bind_eq_ok] at h; obtain ⟨sts, h1, -⟩ := h
    rw [getState_some h1]
    simp

theorem op_produces {op : Operation} (h : checkOperation V C tv S op = .ok S') {r j k : ℕ} (hS : S' r j k ≠ none) :
    S r j k ≠ none ∨ Spec.Produces op r j k := by
  have put : ∀ {r' j' k' : ℕ} {st : VState}, S.put r' j' k' st = S' → S r j k ≠ none ∨ (r = r' ∧ j = j' ∧ k = k') := by
    rintro r' j' k' st rfl
    unfold States.put at hS
    by_cases h : r = r' ∧ j = j' ∧ k = k'
    · exact .inr h
    · rw [if_neg h] at hS
      exact .inl hS
  cases op with
  | shard r' b =>
    unfold checkOperation at h
    dsimp only at h
    rw [Except.bind_eq_ok] at h; obtain ⟨_, -, h⟩ := h
    rw [Except.bind_eq_ok] at h; obtain ⟨_, -, h⟩ := h
    rw [Except.bind_eq_ok] at h; obtain ⟨_, -, h⟩ := h
    rw [Except.bind_eq_ok] at h; obtain ⟨_, -, h⟩ := h
    split at h
    · rw [Except.bind_eq_ok] at h; obtain ⟨_, -, h⟩ := h
      rw [Except.bind_eq_ok] at h; obtain ⟨_, -, h⟩ := h
      rw [Except.bind_eq_ok] at h; obtain ⟨_, -, h⟩ := h
      cases h
      exact .inl hS
    · rw [Except.bind_eq_ok] at h; obtain ⟨_, -, h⟩ := h
      cases h
      exact .inl hS
  | verifyInit j' r' b =>
    unfold checkOperation at h
    dsimp only at h
    rw [Except.bind_eq_ok] at h; obtain ⟨_, -, h⟩ := h
    rw [Except.bind_eq_ok] at h; obtain ⟨_, -, h⟩ := h
    rw [Except.bind_eq_ok] at h; obtain ⟨_, -, h⟩ := h
    rw [Except.bind_eq_ok] at h; obtain ⟨_, -, h⟩ := h
    rw [Except.bind_eq_ok] at h; obtain ⟨_, -, h⟩ := h
    rw [Except.bind_eq_ok] at h; obtain ⟨_, -, h⟩ := h
    rw [Except.bind_eq_ok] at h; obtain ⟨_, -, h⟩ := h
    split at h
    · rename_i hb
      subst hb
      rw [Except.bind_eq_ok] at h; obtain ⟨_, -, h⟩ := h
      rw [Except.bind_eq_ok] at h; obtain ⟨_, -, h⟩ := h
      rw [Except.bind_eq_ok] at h; obtain ⟨_, -, h⟩ := h
      rw [Except.bind_eq_ok] at h; obtain ⟨_, -, h⟩ := h
      rcases put (Except.ok.inj h) with h | ⟨rfl, rfl, rfl⟩
      · exact .inl h
      · exact .inr (.inl ⟨rfl, rfl⟩)
    · rw [Except.bind_eq_ok] at h; obtain ⟨_, -, h⟩ := h
      cases h
      exact .inl hS
  | sharesToMessage k' r' b =>
    unfold checkOperation at h
    dsimp only at h
    rw [Except.bind_eq_ok] at h; obtain ⟨_, -, h⟩ := h
    rw [Except.bind_eq_ok] at h; obtain ⟨_, -, h⟩ := h
    rw [Except.bind_eq_ok] at h; obtain ⟨_, -, h⟩ := h
    rw [Except.bind_eq_ok] at h; obtain ⟨_, -, h⟩ := h
    rw [Except.bind_eq_ok] at h; obtain ⟨_, -, h⟩ := h
    rw [Except.bind_eq_ok] at h; obtain ⟨_, -, h⟩ := h
    split at h
    · rw [Except.bind_eq_ok] at h; obtain ⟨_, -, h⟩ := h
      rw [Except.bind_eq_ok] at h; obtain ⟨_, -, h⟩ := h
      cases h
      exact .inl hS
    · rw [Except.bind_eq_ok] at h; obtain ⟨_, -, h⟩ := h
      cases h
      exact .inl hS
  | verifyNext k' j' r' b =>
    unfold checkOperation at h
    dsimp only at h
    rw [Except.bind_eq_ok] at h; obtain ⟨_, -, h⟩ := h
    rw [Except.bind_eq_ok] at h; obtain ⟨_, -, h⟩ := h
    by_cases hk : k' = 0
    · rw [if_pos hk] at h
      cases h
    rw [if_neg hk] at h
    rw [Except.bind_eq_ok] at h; obtain ⟨_, -, h⟩ := h
    rw [Except.bind_eq_ok] at h; obtain ⟨_, -, h⟩ := h
    split at h
    · rename_i hb
      subst hb
      split at h
      · rw [Except.bind_eq_ok] at h; obtain ⟨_, -, h⟩ := h
        rw [Except.bind_eq_ok] at h; obtain ⟨_, -, h⟩ := h
        rw [Except.bind_eq_ok] at h; obtain ⟨_, -, h⟩ := h
        rcases put (Except.ok.inj h) with h | ⟨rfl, rfl, rfl⟩
        · exact .inl h
        · exact .inr (.inr rfl)
      · rw [Except.bind_eq_ok] at h; obtain ⟨_, -, h⟩ := h
        rw [Except.bind_eq_ok] at h; obtain ⟨_, -, h⟩ := h
        cases h
        exact .inl hS
    · rw [Except.bind_eq_ok] at h; obtain ⟨_, -, h⟩ := h
      cases h
      exact .inl hS
  | aggregate j' b =>
    unfold checkOperation at h
    dsimp only at h
    rw [Except.bind_eq_ok] at h; obtain ⟨_, -, h⟩ := h
    rw [Except.bind_eq_ok] at h; obtain ⟨_, -, h⟩ := h
    split at h
    · rw [Except.bind_eq_ok] at h; obtain ⟨_, -, h⟩ := h
      rw [Except.bind_eq_ok] at h; obtain ⟨_, -, h⟩ := h
      cases h
      exact .inl hS
    · rw [Except.bind_eq_ok] at h; obtain ⟨_, -, h⟩ := h
      cases h
      exact .inl hS
  | unshard b =>
    unfold checkOperation at h
    dsimp only at h
    rw [Except.bind_eq_ok] at h; obtain ⟨_, -, h⟩ := h
    rw [Except.bind_eq_ok] at h; obtain ⟨_, -, h⟩ := h
    split at h
    · rw [Except.bind_eq_ok] at h; obtain ⟨_, -, h⟩ := h
      cases h
      exact .inl hS
    · rw [Except.bind_eq_ok] at h; obtain ⟨_, -, h⟩ := h
      cases h
      exact .inl hS

theorem ordered {ops : List Operation} (h : forFold ops S (fun S op => checkOperation V C tv S op) = .ok S') :
    ∀ (p : ℕ) op r j k, ops[p]? = some op → j < V.shares → Spec.Consumes op r j k → S r j k ≠ none ∨
      ∃ q < p, ∃ op', ops[q]? = some op' ∧ Spec.Produces op' r j k := by
  induction ops generalizing S with
  | nil => simp
  | cons o ops ih =>
    rw [forFold_cons, Except.bind_eq_ok] at h
    obtain ⟨S1, h1, h2⟩ := h
    intro p op r j k hp hj hc
    cases p with
    | zero =>
      simp only [List.getElem?_cons_zero, Option.some.injEq] at hp
      subst hp
      exact .inl (op_consumes hj h1 hc)
    | succ p =>
      rcases ih h2 p op r j k (by simpa using hp) hj hc with h | ⟨q, hq, op', h3, h4⟩
      · rcases op_produces h1 h with h | h
        · exact .inl h
        · exact .inr ⟨0, by omega, o, by simp, h⟩
      · exact .inr ⟨q + 1, by omega, op', by simpa using h3, h4⟩
end
end
end Vdaf.TestVectors
