import Verif.Proofs.TestVectorsReport

/-! The checker on complete test vectors. -/

namespace Vdaf.TestVectors

section
variable {Meas AggParam PubShare InShare OutShare AggShare AggRes VState VShare VMsg : Type} [DecidableEq AggRes]
variable {V : VdafImpl Meas AggParam PubShare InShare OutShare AggShare AggRes VState VShare VMsg}
variable {C : ShareCodec AggParam OutShare AggShare}
variable {tv : TestVec Meas AggRes} {key ctx apb : Bytes} {a : AggParam} {Rs : List (Meas × Bytes × Bytes)}

section
variable {rep : Report Meas} {r : ℕ} {nonce rand : Bytes} {S : States VState}

theorem reportOperations_eq {rounds n : ℕ} (hr : 0 < rounds) :
    Spec.reportOperations rounds n r = .shard r true :: ((List.range n).map (fun j => .verifyInit j r true) ++
      ((List.range (rounds - 1)).flatMap (roundOps n r) ++ roundOps n r (rounds - 1))) := by
  obtain ⟨m, rfl⟩ : ∃ m, rounds = m + 1 := ⟨rounds - 1, by omega⟩
  unfold Spec.reportOperations
  rw [List.range_succ, List.flatMap_append, List.flatMap_singleton]
  simp only [List.cons_append, Nat.add_sub_cancel]
  rfl

/-- The rows of the report that the checker decodes -/
def RowsDecode (rounds : ℕ) (rep : Report Meas) : Prop :=
  ∀ k < rounds, ∀ row, rep.verifierShares[k]? = some row → ∃ bs, mapRes fromHex row = .ok bs

theorem report_sound (hRT : Spec.RoundTrips V C key a ctx Rs) (hctx : fromHex tv.ctx = .ok ctx)
    (hkey : fromHex tv.verifyKey = .ok key) (hap : fromHex tv.aggParam = .ok apb) (ha : V.decodeAggParam apb = .ok a)
    (hrep : tv.reports[r]? = some rep) (hnonce : fromHex rep.nonce = .ok nonce) (hrand : fromHex rep.rand = .ok rand)
    (hR : (rep.measurement, nonce, rand) ∈ Rs)
    (hlen : nonce.length = V.nonceSize) (h0 : 0 < V.shares) (hr : 0 < V.rounds) {S' : States VState}
    (h : forFold (Spec.reportOperations V.rounds V.shares r) S (fun S op => checkOperation V C tv S op) = .ok S') :
    RowsDecode V.rounds rep ∧ ∃ x, genReport V C key ctx a r (rep.measurement, nonce, rand) = .ok x ∧
      Spec.ReportListed x.1 rep := by
  rw [reportOperations_eq hr, forFold_cons, Except.bind_eq_ok] at h
  obtain ⟨S0, h1, h⟩ := h
  obtain ⟨rfl, pub, ins, h2, ⟨pb, h3, h4⟩, h5⟩ := (op_shard hctx hrep hnonce hrand).1 h1
  rw [forFold_append, Except.bind_eq_ok] at h
  obtain ⟨S1, h6, h⟩ := h
  obtain ⟨s0, h7, h8, rfl⟩ := (init_iff hctx hkey hap ha hrep hnonce h0 hr
    ⟨pb, h4, hRT.publicShare _ hR _ _ _ h2 h3⟩ h5
    (fun j s b hj hs hb => hRT.inputShare _ hR _ _ _ _ _ h2 hj hs hb)).1 h6
  have h9 := ginv_init hr h7
  rw [forFold_append, Except.bind_eq_ok] at h
  obtain ⟨S2, h10, h⟩ := h
  obtain ⟨h11, s, h12, h13, h14, h15⟩ := (rounds_iff hRT hctx hap ha hrep h0 h9 h8
    (fun j hj => putAll_same (by rw [h9.states]; exact hj)) (V.rounds - 1) (by omega)).1 S2 h10
  obtain ⟨rfl, h16, msg, m, h17, h18, h19, outs, h20, h21, h22⟩ :=
    (last_iff hRT hctx hap ha hrep (by omega) h13 h14 h15).1 h
  obtain ⟨ibs, h23, h24⟩ := forall₂_comp.2 h5
  refine ⟨fun k hk => ?_, _, genReport_iff.2 ⟨hlen, pub, ins, pb, ibs, s0, s, msg, m, h2, h3, h23, h7, h12, h17, h18,
    outs, h20, fun j hj => ⟨_, ?_, (h21 j hj (by rw [h13.states]; omega)).1, (h21 j hj (by rw [h13.states]; omega)).2⟩, rfl⟩, ?_⟩
  · by_cases h : k < V.rounds - 1
    · exact h11 k h
    · rw [show k = V.rounds - 1 by omega]
      exact h16
  · simp
  · refine ⟨rfl, same_hex.2 hnonce, same_hex.2 hrand, same_hex.2 h4, ?_, h14.rows, h19, h22⟩
    rw [List.forall₂_map_left_iff]
    exact h24.imp fun b h => same_hex.2

theorem report_complete (hRT : Spec.RoundTrips V C key a ctx Rs) (hctx : fromHex tv.ctx = .ok ctx)
    (hkey : fromHex tv.verifyKey = .ok key) (hap : fromHex tv.aggParam = .ok apb) (ha : V.decodeAggParam apb = .ok a)
    (hrep : tv.reports[r]? = some rep) (hnonce : fromHex rep.nonce = .ok nonce) (hrand : fromHex rep.rand = .ok rand)
    (hR : (rep.measurement, nonce, rand) ∈ Rs)
    (h0 : 0 < V.shares) (hr : 0 < V.rounds) (hrows : RowsDecode V.rounds rep)
    {x : Report Meas × List Operation × List OutShare}
    (hx : genReport V C key ctx a r (rep.measurement, nonce, rand) = .ok x) (hl : Spec.ReportListed x.1 rep) :
    ∃ S', forFold (Spec.reportOperations V.rounds V.shares r) S (fun S op => checkOperation V C tv S op) = .ok S' := by
  obtain ⟨hlen, pub, ins, pb, ibs, s0, s, msg, m, h2, h3, h23, h7, h12, h17, h18, outs, h20, h21, rfl⟩ := genReport_iff.1 hx
  dsimp only at *
  have h4 := same_hex.1 hl.publicShare
  have h5 : List.Forall₂ (fun s h => Enc (V.encodeInputShare s) h) ins rep.inputShares := by
    refine forall₂_comp.1 ⟨ibs, h23, ?_⟩
    have := hl.inputShares
    rw [List.forall₂_map_left_iff] at this
    exact this.imp fun b h => same_hex.1
  have h9 := ginv_init hr h7
  have hgl : GList rep s := ⟨hl.verifierShares, (listed_snoc.1 hl.verifierMessages).1⟩
  have hgl0 : GList rep s0 := by
    have : ∀ n s, forFold (List.range n) s0 (fun s i => genRound V ctx a r s i) = .ok s →
        GInv V key ctx a nonce pub ins n s ∧ (GList rep s → GList rep s0) := by
      intro n
      induction n with
      | zero =>
        intro s h
        cases h
        exact ⟨h9, id⟩
      | succ n ih =>
        intro s h
        rw [List.range_succ, forFold_append, Except.bind_eq_ok] at h
        obtain ⟨s2, h5, h6⟩ := h
        rw [forFold_cons, Except.bind_eq_ok] at h6
        obtain ⟨s3, h6, h7⟩ := h6
        cases h7
        obtain ⟨g1, g2⟩ := ih _ h5
        refine ⟨ginv_round g1 h6, fun hl' => g2 ?_⟩
        obtain ⟨msg, m, -, -, outs, -, -, rfl⟩ := (genRound_iff g1.states).1 h6
        refine ⟨fun k row hk => hl'.rows k row ?_, (listed_snoc.1 hl'.messages).1⟩
        dsimp only
        rw [List.getElem?_append_left (List.getElem?_eq_some_iff.1 hk).1]
        exact hk
    exact (this _ _ h12).2 hgl
  obtain ⟨h13, S2, h10, h15⟩ := (rounds_iff (S := putAll S r 0 s0.states) hRT hctx hap ha hrep h0 h9 hgl0
    (fun j hj => putAll_same (by rw [h9.states]; exact hj)) (V.rounds - 1) (by omega)).2 s
    (fun k hk => hrows k (by omega)) h12 hgl
  refine ⟨S2, ?_⟩
  rw [reportOperations_eq hr, forFold_cons, (op_shard hctx hrep hnonce hrand).2 ⟨rfl, pub, ins, h2, ⟨pb, h3, h4⟩, h5⟩,
    Except.ok_bind', forFold_append, (init_iff hctx hkey hap ha hrep hnonce h0 hr
    ⟨pb, h4, hRT.publicShare _ hR _ _ _ h2 h3⟩ h5
    (fun j s b hj hs hb => hRT.inputShare _ hR _ _ _ _ _ h2 hj hs hb)).2 ⟨s0, h7, hgl0, rfl⟩, Except.ok_bind',
    forFold_append, h10, Except.ok_bind']
  refine (last_iff hRT hctx hap ha hrep (by omega) h13 hgl h15).2 ⟨rfl, hrows _ (by omega), msg, m, h17, h18,
    hl.verifierMessages, outs, h20, fun j h h' => ?_, hl.outShares⟩
  obtain ⟨st, g1, g2⟩ := h21 j h
  rw [List.getElem?_eq_getElem h'] at g1
  cases g1
  exact g2

omit [DecidableEq AggRes] in
theorem genReport_inv (hr : 0 < V.rounds) {R : Meas × Bytes × Bytes} {x : Report Meas × List Operation × List OutShare}
    (hx : genReport V C key ctx a r R = .ok x) :
    x.2.1 = Spec.reportOperations V.rounds V.shares r ∧ x.2.2.length = V.shares ∧
    (x.1.measurement = R.1 ∧ x.1.nonce = hex R.2.1 ∧ x.1.rand = hex R.2.2) ∧ x.1.outShares.length = V.shares ∧
    ∀ j (h : j < x.2.2.length) (h' : j < x.1.outShares.length), ∃ b nonce pub i st sh msg,
      C.encodeOutShare x.2.2[j] = .ok b ∧ x.1.outShares[j] = hex b ∧
      Spec.Held V key ctx a nonce pub j i (V.rounds - 1) st sh ∧ V.verifyNext ctx st msg = .ok (.out x.2.2[j]) := by
  obtain ⟨hlen, pub, ins, pb, ibs, s0, s, msg, m, h2, h3, h23, h7, h12, h17, h18, outs, h20, h21, rfl⟩ := genReport_iff.1 hx
  have hops : ∀ n s, forFold (List.range n) s0 (fun s i => genRound V ctx a r s i) = .ok s →
      GInv V key ctx a R.2.1 pub ins n s ∧ s.ops = s0.ops ++ (List.range n).flatMap (roundOps V.shares r) := by
    intro n
    induction n with
    | zero =>
      intro s h
      cases h
      exact ⟨ginv_init hr h7, by simp⟩
    | succ n ih =>
      intro s h
      rw [List.range_succ, forFold_append, Except.bind_eq_ok] at h
      obtain ⟨s2, h5, h6⟩ := h
      rw [forFold_cons, Except.bind_eq_ok] at h6
      obtain ⟨s3, h6, h7⟩ := h6
      cases h7
      obtain ⟨g1, g2⟩ := ih _ h5
      refine ⟨ginv_round g1 h6, ?_⟩
      obtain ⟨msg, m, -, -, outs, -, -, rfl⟩ := (genRound_iff g1.states).1 h6
      dsimp only
      rw [g2, List.range_succ, List.flatMap_append, List.flatMap_singleton, List.append_assoc]
  obtain ⟨g1, g2⟩ := hops _ _ h12
  refine ⟨?_, by simpa using h20, ⟨rfl, rfl, rfl⟩, by simpa using h20, fun j h h' => ?_⟩
  · obtain ⟨o0, -, -, rfl⟩ := (genInit_iff hr).1 h7
    dsimp only at g2 ⊢
    rw [g2, reportOperations_eq hr]
    unfold roundOps
    simp only [List.cons_append, List.append_assoc]
    rw [Nat.sub_add_cancel hr]
  · simp only [List.length_map] at h h'
    obtain ⟨st, g3, g4, g5⟩ := h21 j h
    obtain ⟨g6, rfl⟩ := List.getElem?_eq_some_iff.1 g3
    obtain ⟨i, -, hh⟩ := g1.held j g6 (by rw [g1.shares]; omega)
    simp only [List.getElem_map]
    exact ⟨_, _, _, _, _, _, _, g5, rfl, hh, g4⟩

omit [DecidableEq AggRes] in
/-- The output shares that the report lists decode to those of the generator. -/
theorem out_decodes (hRT : Spec.RoundTrips V C key a ctx Rs) (hr : 0 < V.rounds) {R : Meas × Bytes × Bytes}
    {x : Report Meas × List Operation × List OutShare} (hx : genReport V C key ctx a r R = .ok x)
    (hl : Spec.ReportListed x.1 rep) {j : ℕ} (hj : j < V.shares) :
    ∃ o b, x.2.2[j]? = some o ∧ hexAt rep.outShares j = .ok b ∧ C.decodeOutShare a b = .ok o := by
  obtain ⟨-, h1, -, h2, h3⟩ := genReport_inv hr hx
  obtain ⟨b, _, _, _, _, _, _, h4, h5, h6, h7⟩ := h3 j (by omega) (by omega)
  obtain ⟨y, h8, h9⟩ := hl.outShares j _ (List.getElem?_eq_getElem (by omega))
  rw [h5, same_hex] at h9
  exact ⟨x.2.2[j], b, by simp, hexAt_ok.2 ⟨y, h8, h9⟩, hRT.outShare _ _ _ _ _ _ _ _ _ _ hj h6 h7 h4⟩
end

/-- The output shares of Aggregator `j` -/
theorem own_decodes {j : ℕ} {xs : List (Report Meas × List Operation × List OutShare)} {reps : List (Report Meas)}
    (h : List.Forall₂ (fun x (rep : Report Meas) =>
      ∃ o b, x.2.2[j]? = some o ∧ hexAt rep.outShares j = .ok b ∧ C.decodeOutShare a b = .ok o) xs reps) :
    ∃ os bs, mapRes (fun out => getI out j) (xs.map (·.2.2)) = .ok os ∧
      mapRes (fun rep : Report Meas => hexAt rep.outShares j) reps = .ok bs ∧
      mapRes (fun b => C.decodeOutShare a b) bs = .ok os := by
  induction h with
  | nil => exact ⟨[], [], rfl, rfl, rfl⟩
  | cons h _ ih =>
    obtain ⟨o, b, h1, h2, h3⟩ := h
    obtain ⟨os, bs, h4, h5, h6⟩ := ih
    refine ⟨o :: os, b :: bs, ?_, ?_, ?_⟩
    · rw [List.map_cons, mapRes_cons, getI_of_some h1, h4]
      rfl
    · rw [mapRes_cons, h2, h5]
      rfl
    · rw [mapRes_cons, h3, h6]
      rfl

variable {S S' : States VState}

theorem op_aggregate (hap : fromHex tv.aggParam = .ok apb) (ha : V.decodeAggParam apb = .ok a) {j : ℕ}
    {bs : List Bytes} {os : List OutShare} (hbs : mapRes (fun rep : Report Meas => hexAt rep.outShares j) tv.reports = .ok bs)
    (hos : mapRes (fun b => C.decodeOutShare a b) bs = .ok os) :
    checkOperation V C tv S (.aggregate j true) = .ok S' ↔ S' = S ∧ ∃ ag h, Spec.aggregate V a os = .ok ag ∧
      tv.aggShares[j]? = some h ∧ Enc (C.encodeAggShare ag) h := by
  unfold checkOperation
  dsimp only
  rw [hap, Except.ok_bind', hbs, Except.ok_bind']
  unfold checkAggregateSuccess Spec.aggregate
  simp only [if_true, ha, hos, Except.ok_bind', Except.bind_eq_ok, Except.pure_eq', Except.ok.injEq, hexAt_ok]
  constructor
  · rintro ⟨b, ⟨h, h1, h2⟩, ⟨⟩, ⟨a0, h3, ag, h4, b', h5, h6⟩, rfl⟩
    rw [assertBytes_ok] at h6
    subst h6
    exact ⟨rfl, ag, h, ⟨a0, h3, h4⟩, h1, b', h5, h2⟩
  · rintro ⟨rfl, ag, h, ⟨a0, h3, h4⟩, h1, b', h5, h2⟩
    exact ⟨b', ⟨h, h1, h2⟩, (), ⟨a0, h3, ag, h4, b', h5, assertBytes_ok.2 rfl⟩, rfl⟩

theorem op_unshard (hap : fromHex tv.aggParam = .ok apb) (ha : V.decodeAggParam apb = .ok a)
    {bs : List Bytes} {as : List AggShare} (hbs : mapRes fromHex tv.aggShares = .ok bs)
    (has : mapRes (fun b => C.decodeAggShare a b) bs = .ok as) :
    checkOperation V C tv S (.unshard true) = .ok S' ↔ S' = S ∧ ∃ res, V.unshard a as tv.reports.length = .ok res ∧
      tv.aggResult = some res := by
  unfold checkOperation
  dsimp only
  rw [hap, Except.ok_bind', hbs, Except.ok_bind']
  unfold checkUnshardSuccess
  simp only [if_true, ha, has, Except.ok_bind', Except.bind_eq_ok, Except.pure_eq', Except.ok.injEq]
  unfold pyAssert
  constructor
  · rintro ⟨⟨⟩, ⟨res, h1, h2⟩, rfl⟩
    refine ⟨rfl, res, h1, ?_⟩
    split at h2
    · rename_i h
      simp only [decide_eq_true_eq] at h
      exact h.symm
    · cases h2
  · rintro ⟨rfl, res, h1, h2⟩
    exact ⟨(), ⟨res, h1, by rw [if_pos (by simp [h2])]⟩, rfl⟩

/-! ## All the reports -/

omit [DecidableEq AggRes] in
theorem genTestVecWith_iff {Rs : List (Meas × Bytes × Bytes)} {tv : TestVec Meas AggRes} :
    genTestVecWith V C key a ctx Rs = .ok tv ↔ ∃ ap, ∃ xs : List (Report Meas × List Operation × List OutShare), ∃ aggs : List (AggShare × Hex), ∃ res,
      V.encodeAggParam a = .ok ap ∧
      (xs.length = Rs.length ∧ ∀ r (h : r < Rs.length) (h' : r < xs.length),
        genReport V C key ctx a r Rs[r] = .ok xs[r]) ∧
      (aggs.length = V.shares ∧ ∀ j (h : j < aggs.length), ∃ own b,
        mapRes (fun out => getI out j) (xs.map (·.2.2)) = .ok own ∧ Spec.aggregate V a own = .ok aggs[j].1 ∧
        C.encodeAggShare aggs[j].1 = .ok b ∧ aggs[j].2 = hex b) ∧
      V.unshard a (aggs.map (·.1)) Rs.length = .ok res ∧
      tv = { operations := (xs.map (·.2.1)).flatten ++ (List.range V.shares).map (fun j => .aggregate j true) ++
               [.unshard true]
             shares := V.shares, verifyKey := hex key, aggParam := hex ap, ctx := hex ctx
             reports := xs.map (·.1), aggShares := aggs.map (·.2), aggResult := some res } := by
  unfold genTestVecWith
  simp only [Except.bind_eq_ok, Except.pure_eq', Except.ok.injEq]
  refine exists_congr fun ap => ⟨?_, ?_⟩
  · rintro ⟨h1, xs, h2, aggs, h3, res, h4, rfl⟩
    refine ⟨xs, aggs, res, h1, ⟨by simpa using mapRes_length h2, fun r h h' => ?_⟩, ?_, h4, rfl⟩
    · have := mapRes_getElem h2 r (by simpa using h) h'
      simpa using this
    · obtain ⟨h5, h6⟩ := mapRes_range_iff.1 h3
      refine ⟨h5, fun j hj => ?_⟩
      obtain ⟨x, h7, h11⟩ := h6 j (by omega)
      simp only [Except.bind_eq_ok, Except.ok.injEq] at h7
      obtain ⟨own, h7, a0, h8, a1, h9, b, h10, rfl⟩ := h7
      rw [List.getElem?_eq_getElem hj] at h11
      have h12 := Option.some.inj h11
      refine ⟨own, b, h7, ?_, ?_, ?_⟩
      · unfold Spec.aggregate
        rw [h8, Except.ok_bind', h9, h12]
      · rw [h12]
        exact h10
      · rw [h12]
  · rintro ⟨xs, aggs, res, h1, ⟨h2, h3⟩, ⟨h4, h5⟩, h6, rfl⟩
    refine ⟨h1, xs, ?_, aggs, ?_, res, h6, rfl⟩
    · rw [mapRes_ok_iff, List.forall₂_iff_get]
      refine ⟨by simp [h2], fun r h h' => ?_⟩
      simpa using h3 r (by simpa using h) h'
    · rw [mapRes_range_iff]
      refine ⟨h4, fun j hj => ?_⟩
      obtain ⟨own, b, h7, h8, h9, h10⟩ := h5 j (by omega)
      unfold Spec.aggregate at h8
      rw [Except.bind_eq_ok] at h8
      obtain ⟨a0, h8, h11⟩ := h8
      refine ⟨(aggs[j].1, hex b), ?_, ?_⟩
      · simp only [Except.bind_eq_ok, Except.ok.injEq]
        exact ⟨own, h7, a0, h8, _, h11, b, h9, rfl⟩
      · rw [List.getElem?_eq_getElem (by omega), ← h10]

theorem fold_flatMap_sound {α β σ : Type} {f : α → List β} {g : σ → β → Res σ} {l : List α} {S S' : σ}
    (h : forFold (l.flatMap f) S g = .ok S') : ∀ x ∈ l, ∃ S1 S2, forFold (f x) S1 g = .ok S2 := by
  induction l generalizing S with
  | nil => simp
  | cons x l ih =>
    rw [List.flatMap_cons, forFold_append, Except.bind_eq_ok] at h
    obtain ⟨S1, h1, h2⟩ := h
    intro y hy
    rcases List.mem_cons.1 hy with rfl | hy
    · exact ⟨_, _, h1⟩
    · exact ih h2 y hy

theorem fold_flatMap_complete {α β σ : Type} {f : α → List β} {g : σ → β → Res σ} {l : List α}
    (h : ∀ x ∈ l, ∀ S, ∃ S', forFold (f x) S g = .ok S') (S : σ) : ∃ S', forFold (l.flatMap f) S g = .ok S' := by
  induction l generalizing S with
  | nil => exact ⟨S, rfl⟩
  | cons x l ih =>
    obtain ⟨S1, h1⟩ := h x (by simp) S
    obtain ⟨S2, h2⟩ := ih (fun y hy => h y (by simp [hy])) S1
    exact ⟨S2, by rw [List.flatMap_cons, forFold_append, h1, Except.ok_bind', h2]⟩

omit [DecidableEq AggRes] in
/-- The aggregate shares listed decode to those of the generator. -/
theorem agg_decodes (hRT : Spec.RoundTrips V C key a ctx Rs) {aggs : List AggShare} {hs : List Hex}
    (h : List.Forall₂ (fun ag h => (∃ own, Spec.aggregate V a own = .ok ag) ∧ Enc (C.encodeAggShare ag) h) aggs hs) :
    ∃ bs, mapRes fromHex hs = .ok bs ∧ mapRes (fun b => C.decodeAggShare a b) bs = .ok aggs := by
  induction h with
  | nil => exact ⟨[], rfl, rfl⟩
  | cons h _ ih =>
    obtain ⟨⟨own, h1⟩, b, h2, h3⟩ := h
    obtain ⟨bs, h4, h5⟩ := ih
    refine ⟨b :: bs, ?_, ?_⟩
    · rw [mapRes_cons, h3, h4]
      rfl
    · rw [mapRes_cons, hRT.aggShare _ _ _ h1 h2, h5]
      rfl

section

/-- The last part of the check: aggregation and unsharding -/
theorem tail_iff (hRT : Spec.RoundTrips V C key a ctx Rs) (hap : fromHex tv.aggParam = .ok apb)
    (ha : V.decodeAggParam apb = .ok a) (hr : 0 < V.rounds)
    {xs : List (Report Meas × List Operation × List OutShare)} (hlen : xs.length = Rs.length)
    (hx : ∀ r (h : r < Rs.length) (h' : r < xs.length), genReport V C key ctx a r Rs[r] = .ok xs[r])
    (hl : List.Forall₂ (fun x rep => Spec.ReportListed x.1 rep) xs tv.reports) (hagg : tv.aggShares.length = V.shares) :
    forFold ((List.range V.shares).map (fun j => Operation.aggregate j true) ++ [.unshard true]) S
      (fun S op => checkOperation V C tv S op) = .ok S' ↔ S' = S ∧ ∃ aggs : List (AggShare × Hex), ∃ res,
      (aggs.length = V.shares ∧ ∀ j (h : j < aggs.length), ∃ own b,
        mapRes (fun out => getI out j) (xs.map (·.2.2)) = .ok own ∧ Spec.aggregate V a own = .ok aggs[j].1 ∧
        C.encodeAggShare aggs[j].1 = .ok b ∧ aggs[j].2 = hex b) ∧
      V.unshard a (aggs.map (·.1)) Rs.length = .ok res ∧
      List.Forall₂ Spec.SameBytes (aggs.map (·.2)) tv.aggShares ∧ some res = tv.aggResult := by
  have hn : tv.reports.length = Rs.length := by rw [← hl.length_eq, hlen]
  have own : ∀ j < V.shares, ∃ os bs, mapRes (fun out => getI out j) (xs.map (·.2.2)) = .ok os ∧
      mapRes (fun rep : Report Meas => hexAt rep.outShares j) tv.reports = .ok bs ∧
      mapRes (fun b => C.decodeOutShare a b) bs = .ok os := by
    intro j hj
    refine own_decodes ?_
    rw [List.forall₂_iff_get] at hl ⊢
    refine ⟨hl.1, fun r h h' => ?_⟩
    exact out_decodes hRT hr (hx r (by omega) h) (hl.2 r h h') hj
  rw [forFold_append, Except.bind_eq_ok]
  have hfold : ∀ S', forFold ((List.range V.shares).map (fun j => Operation.aggregate j true)) S
      (fun S op => checkOperation V C tv S op) = .ok S' ↔ S' = S ∧ ∀ op ∈ (List.range V.shares).map (fun j =>
        Operation.aggregate j true), ∃ j, op = .aggregate j true ∧ ∃ own ag h,
        mapRes (fun out => getI out j) (xs.map (·.2.2)) = .ok own ∧ Spec.aggregate V a own = .ok ag ∧
        tv.aggShares[j]? = some h ∧ Enc (C.encodeAggShare ag) h := by
    refine fold_same fun S' op hop => ?_
    rw [List.mem_map] at hop
    obtain ⟨j, hj, rfl⟩ := hop
    obtain ⟨os, bs, h1, h2, h3⟩ := own j (List.mem_range.1 hj)
    rw [op_aggregate hap ha h2 h3]
    refine and_congr_right fun _ => ⟨?_, ?_⟩
    · rintro ⟨ag, h, h4, h5, h6⟩
      exact ⟨j, rfl, os, ag, h, h1, h4, h5, h6⟩
    · rintro ⟨j', h0, own, ag, h, h4, h5, h6, h7⟩
      cases h0
      rw [h1] at h4
      cases h4
      exact ⟨ag, h, h5, h6, h7⟩
  constructor
  · rintro ⟨S1, h1, h2⟩
    obtain ⟨rfl, h3⟩ := (hfold _).1 h1
    obtain ⟨aggs, h4, h5⟩ := exists_list (n := V.shares) (P := fun j (x : AggShare × Hex) => ∃ own b,
        mapRes (fun out => getI out j) (xs.map (·.2.2)) = .ok own ∧ Spec.aggregate V a own = .ok x.1 ∧
        C.encodeAggShare x.1 = .ok b ∧ x.2 = hex b ∧ ∃ h, tv.aggShares[j]? = some h ∧ fromHex h = .ok b) (by
      intro j hj
      obtain ⟨j', h0, own, ag, h, h4, h5, h6, b, h7, h8⟩ :=
        h3 _ (List.mem_map.2 ⟨j, List.mem_range.2 hj, rfl⟩)
      cases h0
      exact ⟨(ag, hex b), own, b, h4, h5, h7, rfl, h, h6, h8⟩)
    have h6 : List.Forall₂ (fun ag h => (∃ own, Spec.aggregate V a own = .ok ag) ∧ Enc (C.encodeAggShare ag) h)
        (aggs.map (·.1)) tv.aggShares := by
      rw [List.forall₂_iff_get]
      refine ⟨by simp [h4, hagg], fun j h h' => ?_⟩
      simp only [List.length_map] at h
      obtain ⟨own, b, h7, h8, h9, -, x, h10, h11⟩ := h5 j h
      obtain ⟨_, rfl⟩ := List.getElem?_eq_some_iff.1 h10
      simp only [List.get_eq_getElem, List.getElem_map]
      exact ⟨⟨own, h8⟩, b, h9, h11⟩
    obtain ⟨bs, h7, h8⟩ := agg_decodes hRT h6
    rw [forFold_cons, Except.bind_eq_ok] at h2
    obtain ⟨S2, h2, h9⟩ := h2
    cases h9
    obtain ⟨rfl, res, h10, h11⟩ := (op_unshard hap ha h7 h8).1 h2
    rw [hn] at h10
    refine ⟨rfl, aggs, res, ⟨h4, fun j hj => ?_⟩, h10, ?_, h11.symm⟩
    · obtain ⟨own, b, h12, h13, h14, h15, -⟩ := h5 j hj
      exact ⟨own, b, h12, h13, h14, h15⟩
    · rw [List.forall₂_iff_get]
      refine ⟨by simp [h4, hagg], fun j h h' => ?_⟩
      simp only [List.length_map] at h
      obtain ⟨own, b, -, -, -, h12, x, h13, h14⟩ := h5 j h
      obtain ⟨_, rfl⟩ := List.getElem?_eq_some_iff.1 h13
      simp only [List.get_eq_getElem, List.getElem_map]
      rw [h12]
      exact same_hex.2 h14
  · rintro ⟨rfl, aggs, res, ⟨h1, h2⟩, h3, h4, h5⟩
    have h4' := List.forall₂_iff_get.1 h4
    have hE : ∀ j (h : j < aggs.length) (h' : j < tv.aggShares.length), Enc (C.encodeAggShare aggs[j].1) tv.aggShares[j] := by
      intro j h h'
      obtain ⟨own, b, -, -, h8, h9⟩ := h2 j h
      have := h4'.2 j (by simpa using h) h'
      simp only [List.get_eq_getElem, List.getElem_map] at this
      rw [h9] at this
      exact ⟨b, h8, same_hex.1 this⟩
    have h6 : List.Forall₂ (fun ag h => (∃ own, Spec.aggregate V a own = .ok ag) ∧ Enc (C.encodeAggShare ag) h)
        (aggs.map (·.1)) tv.aggShares := by
      rw [List.forall₂_iff_get]
      refine ⟨by simp [h1, hagg], fun j h h' => ?_⟩
      simp only [List.length_map] at h
      obtain ⟨own, b, -, h7, -, -⟩ := h2 j h
      simp only [List.get_eq_getElem, List.getElem_map]
      exact ⟨⟨own, h7⟩, hE j h h'⟩
    obtain ⟨bs, h7, h8⟩ := agg_decodes hRT h6
    refine ⟨S', (hfold _).2 ⟨rfl, fun op hop => ?_⟩, ?_⟩
    · rw [List.mem_map] at hop
      obtain ⟨j, hj, rfl⟩ := hop
      rw [List.mem_range] at hj
      obtain ⟨own, b, h9, h10, h11, h12⟩ := h2 j (by omega)
      exact ⟨j, rfl, own, _, tv.aggShares[j], h9, h10, List.getElem?_eq_getElem (by omega), hE j (by omega) (by omega)⟩
    · rw [forFold_cons, (op_unshard hap ha h7 h8).2 ⟨rfl, res, by rw [hn]; exact h3, h5.symm⟩]
      rfl

theorem check_sound (hRT : Spec.RoundTrips V C key a ctx Rs) (h0 : 0 < V.shares) (hr : 0 < V.rounds)
    (hin : Spec.Inputs V tv key a ctx Rs) (hops : tv.operations = Spec.operations V.rounds V.shares Rs.length)
    (hagg : tv.aggShares.length = V.shares) (hnonce : ∀ R ∈ Rs, R.2.1.length = V.nonceSize)
    (h : checkTestVector V C tv = .ok ()) :
    (∀ rep ∈ tv.reports, RowsDecode V.rounds rep) ∧
    ∃ tv', genTestVecWith V C key a ctx Rs = .ok tv' ∧ Spec.VectorListed tv' tv := by
  unfold checkTestVector at h
  rw [Except.bind_eq_ok] at h
  obtain ⟨S', h, -⟩ := h
  obtain ⟨hkey, ⟨apb, hap, ha⟩, hctx, hreps⟩ := hin
  rw [hops] at h
  unfold Spec.operations at h
  rw [List.append_assoc, forFold_append, Except.bind_eq_ok] at h
  obtain ⟨S1, h1, h2⟩ := h
  have h3 := fold_flatMap_sound h1
  have hreps' := List.forall₂_iff_get.1 hreps
  have h4 : ∀ r (h : r < Rs.length) (h' : r < tv.reports.length), RowsDecode V.rounds tv.reports[r] ∧
      ∃ x, genReport V C key ctx a r Rs[r] = .ok x ∧ Spec.ReportListed x.1 tv.reports[r] := by
    intro r h h'
    obtain ⟨S1, S2, h4⟩ := h3 r (List.mem_range.2 h)
    obtain ⟨h5, h6, h7⟩ := hreps'.2 r h h'
    have hR : (tv.reports[r].measurement, Rs[r].2.1, Rs[r].2.2) ∈ Rs := by
      rw [show tv.reports[r].measurement = Rs[r].1 from h5.symm]
      exact List.getElem_mem h
    have := report_sound (tv := tv) hRT hctx hkey hap ha (List.getElem?_eq_getElem h') h6 h7 hR
      (hnonce _ (List.getElem_mem h)) h0 hr h4
    simp only [List.get_eq_getElem] at h5 this
    rw [← h5] at this
    exact this
  have hn := hreps'.1
  obtain ⟨xs, h5, h6⟩ := exists_list (n := Rs.length) (P := fun r x => ∀ (h : r < Rs.length) (h' : r < tv.reports.length),
    genReport V C key ctx a r Rs[r] = .ok x ∧ Spec.ReportListed x.1 tv.reports[r]) (by
      intro r hr
      obtain ⟨-, x, h5⟩ := h4 r hr (by omega)
      exact ⟨x, fun _ _ => h5⟩)
  have hl : List.Forall₂ (fun x rep => Spec.ReportListed x.1 rep) xs tv.reports := by
    rw [List.forall₂_iff_get]
    exact ⟨by omega, fun r h h' => (h6 r h (by omega) h').2⟩
  obtain ⟨-, aggs, res, h7, h8, h9, h10⟩ := (tail_iff hRT hap ha hr h5 (fun r h h' => (h6 r h' h (by omega)).1) hl hagg).1 h2
  refine ⟨fun rep hrep => ?_, _, genTestVecWith_iff.2 ⟨apb, xs, aggs, res, (hRT.aggParam _).2 ha,
    ⟨h5, fun r h h' => (h6 r h' h (by omega)).1⟩, h7, h8, rfl⟩, same_hex.2 hkey, same_hex.2 hap, same_hex.2 hctx, ?_, h9, h10⟩
  · obtain ⟨r, h', rfl⟩ := List.mem_iff_getElem.1 hrep
    exact (h4 r (by omega) h').1
  · rw [List.forall₂_map_left_iff]
    exact hl

theorem check_complete (hRT : Spec.RoundTrips V C key a ctx Rs) (h0 : 0 < V.shares) (hr : 0 < V.rounds)
    (hin : Spec.Inputs V tv key a ctx Rs) (hops : tv.operations = Spec.operations V.rounds V.shares Rs.length)
    (hrows : ∀ rep ∈ tv.reports, RowsDecode V.rounds rep) {tv' : TestVec Meas AggRes}
    (hgen : genTestVecWith V C key a ctx Rs = .ok tv') (hl : Spec.VectorListed tv' tv) :
    checkTestVector V C tv = .ok () := by
  obtain ⟨ap, xs, aggs, res, h1, ⟨h2, h3⟩, h4, h5, rfl⟩ := genTestVecWith_iff.1 hgen
  obtain ⟨hkey, ⟨apb, hap, ha⟩, hctx, hreps⟩ := hin
  have hreps' := List.forall₂_iff_get.1 hreps
  have hl1 := hl.reports
  dsimp only at hl1
  rw [List.forall₂_map_left_iff] at hl1
  have hl1' := List.forall₂_iff_get.1 hl1
  obtain ⟨S1, h6⟩ := fold_flatMap_complete (l := List.range Rs.length) (f := Spec.reportOperations V.rounds V.shares)
    (g := fun S op => checkOperation V C tv S op) (by
      intro r hr' S
      rw [List.mem_range] at hr'
      have hr2 : r < tv.reports.length := by rw [← hreps'.1]; exact hr'
      obtain ⟨h7, h8, h9⟩ := hreps'.2 r hr' hr2
      refine report_complete hRT hctx hkey hap ha (List.getElem?_eq_getElem hr2) h8 h9 (by
          rw [show tv.reports[r].measurement = Rs[r].1 from h7.symm]
          exact List.getElem_mem hr') h0 hr
        (hrows _ (List.getElem_mem hr2)) (x := xs[r]'(by omega)) ?_ (hl1'.2 r (by omega) hr2)
      simp only [List.get_eq_getElem] at h7 ⊢
      rw [← h7]
      exact h3 r hr' (by omega)) (fun _ _ _ => none)
  unfold checkTestVector
  rw [hops]
  unfold Spec.operations
  rw [List.append_assoc, forFold_append, h6, Except.ok_bind',
    (tail_iff hRT hap ha hr h2 (fun r h h' => h3 r h h') hl1 (by
      have := hl.aggShares.length_eq
      simp only [List.length_map] at this
      omega)).2 ⟨rfl, aggs, res, h4, h5, hl.aggShares, hl.aggResult⟩]
  rfl

omit [DecidableEq AggRes] in
theorem gen_inv (hr : 0 < V.rounds) {tv : TestVec Meas AggRes} (hgen : genTestVecWith V C key a ctx Rs = .ok tv) :
    tv.operations = Spec.operations V.rounds V.shares Rs.length ∧ tv.aggShares.length = V.shares := by
  obtain ⟨ap, xs, aggs, res, h1, ⟨h2, h3⟩, ⟨h4, -⟩, h5, rfl⟩ := genTestVecWith_iff.1 hgen
  refine ⟨?_, by simpa using h4⟩
  unfold Spec.operations
  dsimp only
  congr 2
  rw [List.flatMap_def]
  congr 1
  refine List.ext_getElem (by simp [h2]) fun r h h' => ?_
  simp only [List.length_map] at h
  simp only [List.getElem_map, List.getElem_range]
  exact (genReport_inv hr (h3 r (by omega) h)).1
end
end
end Vdaf.TestVectors
