import Verif.Proofs.Poplar1Privacy
import Verif.Proofs.Poplar1PrivacyReal

/-!
# Property C63

One Aggregator learns nothing about the measurements of Poplar1 reports but the numbers of accepted reports per
queried prefix.  It sees the public shares, its own input shares, and everything that the honest Aggregator sends: two
verifier shares per report and level, and the aggregate shares.  The verifier messages that the honest Aggregator gets
are arbitrary, so that the corrupted one need not follow the protocol.  As in a proof in the random-oracle model, the
values that the Client and the honest Aggregator derive from seeds unknown to the corrupted Aggregator are replaced by
independent uniformly random values (`IdealReport`); `C63_real` proves that this is what the code computes once these
values are drawn from the seeds.
-/

namespace Vdaf
open Spec

section
variable (prims : Prims)

/-- C63: there are finitely many choices of the random values, so that the numbers below compare probabilities. -/
theorem C63_finite (bits n : ℕ) : {c : Fin n → ReportCoins bits | ∀ i, c i ∈ reportCoins bits}.Finite := by
  have : {c : Fin n → ReportCoins bits | ∀ i, c i ∈ reportCoins bits} =
      Set.pi Set.univ fun _ : Fin n => reportCoins bits := by
    ext c; simp
  rw [this]
  exact Set.Finite.pi fun _ => finite_reportCoins bits

/-- C63, for a single report: whatever the measurement, every view arises from the same number of choices of the
random values. -/
theorem C63_report {bits : ℕ} (K : Known) {queries : Fin bits → Option (List (List Bool))}
    (hq : ∀ level prefixes, queries level = some prefixes → prefixes.Nodup ∧ ∀ p ∈ prefixes, p.length = level.val + 1)
    {alpha alpha' : List Bool} (ha : alpha.length = bits) (ha' : alpha'.length = bits) {v : ReportView bits}
    (hv : HasValues prims (poplarIdpf bits) K.ctx K.nonce v.publicShare K.key K.b alpha)
    (hv' : HasValues prims (poplarIdpf bits) K.ctx K.nonce v.publicShare K.key K.b alpha') :
    {c ∈ reportCoins bits | IdealReport prims K queries alpha c v}.ncard =
    {c ∈ reportCoins bits | IdealReport prims K queries alpha' c v}.ncard :=
  report_ncard hq ha ha' hv hv'

/-- C63: let `alpha` and `alpha'` be the measurements of two batches such that at every queried level every queried
prefix has the same number of accepted reports.  Then every view of the corrupted Aggregator, including the aggregate
shares, arises from the same number of choices of the random values. -/
theorem C63_privacy {bits n : ℕ} (K : Fin n → Known) {queries : Fin bits → Option (List (List Bool))}
    (hq : ∀ level prefixes, queries level = some prefixes → prefixes.Nodup ∧ ∀ p ∈ prefixes, p.length = level.val + 1)
    (accepted : Fin bits → Finset (Fin n)) {alpha alpha' : Fin n → List Bool} (ha : ∀ i, (alpha i).length = bits)
    (ha' : ∀ i, (alpha' i).length = bits)
    (hcount : ∀ level prefixes, queries level = some prefixes → ∀ p ∈ prefixes,
      ((accepted level).filter fun i => p <+: alpha i).card = ((accepted level).filter fun i => p <+: alpha' i).card)
    {v : Fin n → ReportView bits} {agg : (level : Fin bits) → List (Fk (levelKind bits level))}
    (hv : ∀ i, HasValues prims (poplarIdpf bits) (K i).ctx (K i).nonce (v i).publicShare (K i).key (K i).b (alpha i))
    (hv' : ∀ i, HasValues prims (poplarIdpf bits) (K i).ctx (K i).nonce (v i).publicShare (K i).key (K i).b
      (alpha' i)) :
    {c | (∀ i, c i ∈ reportCoins bits) ∧ IdealBatch prims K queries accepted alpha c v agg}.ncard =
    {c | (∀ i, c i ∈ reportCoins bits) ∧ IdealBatch prims K queries accepted alpha' c v agg}.ncard := by
  by_cases hagg : ∀ level prefixes, queries level = some prefixes → (agg level).length = prefixes.length ∧
      ∃ outs : accepted level → List (Fk (levelKind bits level)),
        (∀ i, OtherOut prims (K i.1) (alpha i.1) (v i.1).publicShare level prefixes (outs i)) ∧ IsSum outs (agg level)
  · have hagg' := fun level prefixes hl =>
      otherOut_congr (prims := prims) (K := K) (pub := fun i => (v i).publicShare) (level := level.val) (agg := agg level)
        (hcount level prefixes hl) (hagg level prefixes hl)
    have e1 : ∀ c, ((∀ i, c i ∈ reportCoins bits) ∧ IdealBatch prims K queries accepted alpha c v agg) ↔
        ∀ i, c i ∈ reportCoins bits ∧ IdealReport prims (K i) queries (alpha i) (c i) (v i) := fun c =>
      ⟨fun h i => ⟨h.1 i, h.2.1 i⟩, fun h => ⟨fun i => (h i).1, fun i => (h i).2, hagg⟩⟩
    have e2 : ∀ c, ((∀ i, c i ∈ reportCoins bits) ∧ IdealBatch prims K queries accepted alpha' c v agg) ↔
        ∀ i, c i ∈ reportCoins bits ∧ IdealReport prims (K i) queries (alpha' i) (c i) (v i) := fun c =>
      ⟨fun h i => ⟨h.1 i, h.2.1 i⟩, fun h => ⟨fun i => (h i).1, fun i => (h i).2, hagg'⟩⟩
    simp only [e1, e2]
    rw [ncard_pi fun i c => c ∈ reportCoins bits ∧ IdealReport prims (K i) queries (alpha i) c (v i),
      ncard_pi fun i c => c ∈ reportCoins bits ∧ IdealReport prims (K i) queries (alpha' i) c (v i)]
    exact Finset.prod_congr rfl fun i _ => report_ncard hq (ha i) (ha' i) (hv i) (hv' i)
  · have e1 : {c | (∀ i, c i ∈ reportCoins bits) ∧ IdealBatch prims K queries accepted alpha c v agg} = ∅ :=
      Set.eq_empty_iff_forall_notMem.2 fun c h => hagg h.2.2
    have e2 : {c | (∀ i, c i ∈ reportCoins bits) ∧ IdealBatch prims K queries accepted alpha' c v agg} = ∅ :=
      Set.eq_empty_iff_forall_notMem.2 fun c h => hagg fun level prefixes hl =>
        otherOut_congr (prims := prims) (K := K) (pub := fun i => (v i).publicShare) (level := level.val)
          (agg := agg level) (fun p hp => (hcount level prefixes hl p hp).symm) (h.2.2 level prefixes hl)
    rw [e1, e2]

/-- C63, the link to the code: the public share, the input share of Aggregator `b` and what the other Aggregator sends
are those of the ideal process, with random values drawn from seeds that Aggregator `b` does not get. -/
theorem C63_real {fuel : ℕ} (hf : fuel < 2 ^ 120) {bits : ℕ} {P : Poplar1} (hP : Poplar1.init bits = .ok P)
    {ctx nonce rand : Bytes} (verifyKey : Bytes) {alpha : List Bool} {pub : List CorrectionWord}
    {shares : List Poplar1InputShare} (h : P.shard prims fuel ctx alpha nonce rand = .ok (pub, shares)) {b : ℕ}
    (hb : b < 2) :
    ∃ (s s' helper : Poplar1InputShare) (c : ReportCoins bits),
      shares[b]? = some s ∧ shares[1 - b]? = some s' ∧ shares[1]? = some helper ∧ c ∈ reportCoins bits ∧
      CoinsFrom prims ctx nonce b alpha pub s' helper (rand.drop 96) c ∧
      (let K : Known := ⟨ctx, verifyKey, b, nonce, s.key, s.corrSeed⟩
       alpha.length = bits ∧ HasValues prims (poplarIdpf bits) ctx nonce pub s.key b alpha ∧
       IdealShare prims (poplarIdpf bits) ctx nonce b s.key alpha (fun level => [1, (c level).auth])
         (fun level => (c level).tree) pub ∧
       (∀ level : Fin bits, ∃ own, abAt s level _ = [own.1, own.2] ∧ IdealOwn prims K level (c level) own) ∧
       ∀ level prefixes st sh,
         P.verifyInit prims fuel verifyKey ctx (1 - b : ℕ) (level, prefixes) nonce pub s' = .ok (st, sh) →
         ∃ hlv : level < bits, prefixes.Nodup ∧ (∀ p ∈ prefixes, p.length = level + 1) ∧
           ∃ first, sh = ⟨levelKind bits level, [first.1, first.2.1, first.2.2]⟩ ∧ ∀ message, ∃ st' second,
             Poplar1.verifyNext ctx st (some ⟨levelKind bits level, [message.1, message.2.1, message.2.2]⟩) =
               .ok (.cont st' ⟨levelKind bits level, [second]⟩) ∧
             IdealRound prims K alpha pub level prefixes (c ⟨level, hlv⟩) ⟨first, message, second⟩ ∧
             ∃ out, Poplar1.verifyNext ctx st' none = .ok (.out ⟨levelKind bits level, out⟩) ∧
               OtherOut prims K alpha pub level prefixes out) := by
  obtain ⟨key0, key1, seed0, seed1, seed2, ks, kLeaf, inner0, inner1, leaf0, leaf1, p1, p2, p3, p4, l1, l2, l3, l4, l5,
    hrand, rfl, hks, hi0, hi1, s1, s2, s3, s4, hgen, hin, hlf⟩ := C56_shard prims hf hP h
  obtain ⟨-, -, hc, ha⟩ := Poplar1.shard_inv h
  obtain ⟨rfl, hbits⟩ := Poplar1.init_ok hP
  have hib : ∀ x ∈ ks.map (fun k => ([1, k] : List Field64)), x.length = 2 := by
    intro x hx
    obtain ⟨k, -, rfl⟩ := List.mem_map.1 hx
    rfl
  have hd : rand.drop 96 = seed2 := by
    rw [hrand, ← List.append_nil seed2]
    exact List.drop_left' (by simp [l1, l2, l3, l4])
  obtain ⟨s, s', hs, hs', hk, hk', hlevel⟩ : ∃ s s' : Poplar1InputShare,
      [(⟨key0, seed0, inner0, leaf0⟩ : Poplar1InputShare), ⟨key1, seed1, inner1, leaf1⟩][b]? = some s ∧
      [(⟨key0, seed0, inner0, leaf0⟩ : Poplar1InputShare), ⟨key1, seed1, inner1, leaf1⟩][1 - b]? = some s' ∧
      [key0, key1][b]? = some s.key ∧ [key0, key1][1 - b]? = some s'.key ∧
      ∀ level : Fin bits, ∃ (k : Fk (levelKind bits level))
        (t t' : Fk (levelKind bits level) × Fk (levelKind bits level) × Fk (levelKind bits level))
        (AB AB' H : Fk (levelKind bits level) × Fk (levelKind bits level)), authAt ks kLeaf level _ = some k ∧
        CorrAt prims bits s.corrSeed ctx nonce b level _ [t.1, t.2.1, t.2.2] ∧
        CorrAt prims bits s'.corrSeed ctx nonce (1 - b) level _ [t'.1, t'.2.1, t'.2.2] ∧
        abAt s level _ = [AB.1, AB.2] ∧ abAt s' level _ = [AB'.1, AB'.2] ∧
        abAt ⟨key1, seed1, inner1, leaf1⟩ level _ = [H.1, H.2] ∧
        AB = shareAB b (sumAB t t' k) H ∧ AB' = shareAB (1 - b) (sumAB t t' k) H := by
    obtain rfl | rfl : b = 0 ∨ b = 1 := by omega
    · refine ⟨_, _, rfl, rfl, rfl, rfl, fun level => ?_⟩
      obtain ⟨k, t0, t1, AB0, AB1, e1, e2, e3, e4, e5, e6, e7⟩ :=
        level_data (key0 := key0) (key1 := key1) hks hin hlf level level.2 rfl
      exact ⟨k, t0, t1, AB0, AB1, AB1, e1, e2, e3, e4, e5, e5,
        Prod.ext (eq_sub_of_add_eq e6) (eq_sub_of_add_eq e7), rfl⟩
    · refine ⟨_, _, rfl, rfl, rfl, rfl, fun level => ?_⟩
      obtain ⟨k, t0, t1, AB0, AB1, e1, e2, e3, e4, e5, e6, e7⟩ :=
        level_data (key0 := key0) (key1 := key1) hks hin hlf level level.2 rfl
      refine ⟨k, t1, t0, AB1, AB0, AB1, e1, e3, e2, e5, e4, e5, rfl, ?_⟩
      rw [sumAB_comm]
      exact Prod.ext (eq_sub_of_add_eq e6) (eq_sub_of_add_eq e7)
  choose k t t' AB AB' H hkk hT hT' hAB hAB' hH hsh hsh' using hlevel
  obtain ⟨key, key', beta, g1, g2, g3, g4, e, g5, g6, g7⟩ :=
    C62_gen prims (poplarIdpf bits) ctx nonce b hf hc hib rfl hgen hb
  obtain rfl := Option.some.inj (g1.symm.trans hk)
  obtain rfl := Option.some.inj (g2.symm.trans hk')
  have hbeta : beta = fun level => [1, k level] := by
    funext level
    have := (g3 level).1
    rw [betaOf_auth, hkk level] at this
    exact (Option.some.inj this).symm
  subst hbeta
  refine ⟨s, s', ⟨key1, seed1, inner1, leaf1⟩, fun level => ⟨e level, k level, t' level, H level⟩, hs, hs', rfl, g5,
    ⟨g6, hT', ks, kLeaf, p1, p2, p3, p4, hks, hd ▸ s1, hd ▸ s2, hd ▸ s3, hd ▸ s4, fun level => ⟨hkk level, hH level⟩⟩,
    ha, g4, g7, fun level => ⟨AB level, hAB level, t level, hT level, hsh level⟩, ?_⟩
  intro level prefixes st sh hinit
  obtain ⟨ds, hs', r, a, b', c', A, B, pos', d1, d2, d3, d4, d5, d6, d7, rfl, rfl⟩ :=
    C56_verify_init prims fuel hP (j := 1 - b) (by omega) hinit
  have hlv : level < bits := by
    have he := d4
    unfold Idpf.eval at he
    simp only [Except.bind_eq_ok] at he
    obtain ⟨_, -, _, h2, -⟩ := he
    rw [raiseIf_eq_ok, decide_eq_false_iff_not, not_not] at h2
    have := h2.2
    omega
  obtain ⟨-, f1, f2, f3⟩ := eval_other (I := poplarIdpf bits) hf hc hib rfl hgen hb hk hk' d4
    (beta := [1, k ⟨level, hlv⟩]) ((betaOf_auth _ _ _ _).trans (by rw [hkk ⟨level, hlv⟩]; rfl))
  obtain ⟨ys, o1, o2, o3⟩ := own_of_other (K := ⟨ctx, verifyKey, b, nonce, s.key, s.corrSeed⟩) d1 d2 f3
  have hab := (hAB' ⟨level, hlv⟩).symm.trans d7
  have hcr := corrAt_unique (hT' ⟨level, hlv⟩) d6
  simp only [List.cons.injEq, and_true] at hab hcr
  refine ⟨hlv, f1, f2, (_, _, _), rfl, fun message => ⟨_, _, Poplar1.next_evaluate _ _ _ _ _ _ _ _ _, ?_, _, rfl,
    ys, o1, o2⟩⟩
  refine ⟨ys, r, t ⟨level, hlv⟩, pos', o1, d3, d5, hT ⟨level, hlv⟩, ?_, ?_⟩
  · dsimp only
    rw [← o2, ← o3, hcr.1, hcr.2.1, hcr.2.2]
  · dsimp only
    rw [← hsh' ⟨level, hlv⟩, hab.1, hab.2]

end

/-! ### Non-vacuity -/

/-- A report with the measurement `alpha`, the first round of its verification by the second Aggregator, and the values
of the first Aggregator at the prefixes of `alpha'` -/
def C63_run (alpha alpha' : List Bool) : Res Bool := do
  let P ← Poplar1.init 2
  let nonce := List.replicate 16 3
  let (pub, shares) ← P.shard toyPrims 40 [1] alpha nonce (List.replicate 128 7)
  let s ← getI shares 0
  let s' ← getI shares 1
  pyAssert (s.key.length = 16 ∧ ∀ cw ∈ pub, cw.seedCw.length = 16)
  let (_, _) ← P.verifyInit toyPrims 40 (List.replicate 32 1) [1] 1 (0, [[false], [true]]) nonce pub s'
  let _ ← P.idpf.eval toyPrims 40 0 pub s.key 0 [alpha'.take 1] [1] nonce
  let _ ← P.idpf.eval toyPrims 40 0 pub s.key 1 [alpha'.take 2] [1] nonce
  return true

/-- The run above meets the hypotheses of `C63_report`, for the view of the first Aggregator. -/
theorem C63_run_view {alpha alpha' : List Bool} (run : C63_run alpha alpha' = .ok true)
    (queries : Fin 2 → Option (List (List Bool))) (h0 : queries 0 = some [[false], [true]]) (h1 : queries 1 = none) :
    ∃ (K : Known) (v : ReportView 2) (c : ReportCoins 2) (out : List (Fk (levelKind 2 0))), alpha.length = 2 ∧
      HasValues toyPrims (poplarIdpf 2) K.ctx K.nonce v.publicShare K.key K.b alpha ∧
      HasValues toyPrims (poplarIdpf 2) K.ctx K.nonce v.publicShare K.key K.b alpha' ∧ c ∈ reportCoins 2 ∧
      IdealReport toyPrims K queries alpha c v ∧
      OtherOut toyPrims K alpha v.publicShare 0 [[false], [true]] out ∧ out.length = 2 := by
  simp only [C63_run, Except.bind_eq_ok] at run
  obtain ⟨P, hP, ⟨pub, shares⟩, h, s, hs, s', hs', _, hlen, ⟨st, sh⟩, hi, y0, e0, y1, e1, -⟩ := run
  rw [pyAssert_eq_ok, decide_eq_true_eq] at hlen
  obtain ⟨rfl, -⟩ := Poplar1.init_ok hP
  obtain ⟨t, t', _, c, g1, g2, -, g3, -, g4, g5, g6, g7, g8⟩ :=
    C63_real toyPrims (by decide) hP (List.replicate 32 1) h (b := 0) (by decide)
  rw [getI_eq_ok, g1] at hs
  rw [getI_eq_ok, g2] at hs'
  obtain rfl := Option.some.inj hs
  obtain rfl := Option.some.inj hs'
  obtain ⟨_, -, -, first, -, hnext⟩ := g8 0 [[false], [true]] st sh hi
  obtain ⟨st', second, -, hround, out, -, hout⟩ := hnext (1, 2, 3)
  choose own _ hown using g7
  have hl : out.length = 2 := by
    obtain ⟨ys, o1, rfl⟩ := hout
    have := o1.length_eq
    simp only [List.length_cons, List.length_nil] at this
    simp [← this]
  refine ⟨⟨[1], List.replicate 32 1, 0, List.replicate 16 3, t.key, t.corrSeed⟩,
    ⟨pub, own, Fin.cons ⟨first, (1, 2, 3), second⟩ fun _ => ⟨(0, 0, 0), (0, 0, 0), 0⟩⟩, c, out, g4, g5, ?_, g3,
    ⟨g6, fun level => ⟨hown level, fun prefixes hp => ?_⟩⟩, hout, hl⟩
  · intro level hl
    simp only at hl
    interval_cases level
    · have := C56_eval (j := 0) (level := 0) toyPrims (by decide) ⟨2, 2⟩ (by decide) hlen.1 hlen.2 e0
      cases this with
      | cons h _ => exact ⟨_, h⟩
    · have := C56_eval (j := 0) (level := 1) toyPrims (by decide) ⟨2, 2⟩ (by decide) hlen.1 hlen.2 e1
      cases this with
      | cons h _ => exact ⟨_, h⟩
  · match level with
    | 0 =>
      rw [h0] at hp
      obtain rfl := Option.some.inj hp
      exact hround
    | 1 =>
      rw [h1] at hp
      cases hp

/- Non-vacuity: two reports with the measurements `10` and `01`, verified for the prefixes `0` and `1`, meet the
hypotheses of `C63_privacy`, and the view that arises from them arises also for the measurements `01` and `10`. -/
example : ∃ (K : Fin 2 → Known) (queries : Fin 2 → Option (List (List Bool))) (v : Fin 2 → ReportView 2)
    (agg : (level : Fin 2) → List (Fk (levelKind 2 level))),
    {c | (∀ i, c i ∈ reportCoins 2) ∧
      IdealBatch toyPrims K queries (fun _ => Finset.univ) ![[true, false], [false, true]] c v agg}.Nonempty ∧
    {c | (∀ i, c i ∈ reportCoins 2) ∧
      IdealBatch toyPrims K queries (fun _ => Finset.univ) ![[false, true], [true, false]] c v agg}.Nonempty := by
  obtain ⟨K, v, c, out, a1, a2, a3, a4, a5, a6, a7⟩ := C63_run_view (alpha := [true, false]) (alpha' := [false, true])
    (by decide +kernel) ![some [[false], [true]], none] rfl rfl
  obtain ⟨K', v', c', out', b1, b2, b3, b4, b5, b6, b7⟩ := C63_run_view (alpha := [false, true])
    (alpha' := [true, false]) (by decide +kernel) ![some [[false], [true]], none] rfl rfl
  have hne : {c | (∀ i, c i ∈ reportCoins 2) ∧
      IdealBatch toyPrims ![K, K'] ![some [[false], [true]], none] (fun _ => Finset.univ)
        ![[true, false], [false, true]] c ![v, v']
        (Fin.cons (List.zipWith (· + ·) out out') fun _ => [])}.Nonempty := by
    refine ⟨![c, c'], fun i => ?_, fun i => ?_, fun level prefixes hp => ?_⟩
    · fin_cases i
      · exact a4
      · exact b4
    · fin_cases i
      · exact a5
      · exact b5
    · match level with
      | 0 =>
        obtain rfl := Option.some.inj hp
        refine ⟨by simp [Fin.cons_zero, a7, b7], fun i => ![out, out'] i.1, ?_, ?_, ?_⟩
        · rintro ⟨i, hi⟩
          fin_cases i
          · exact a6
          · exact b6
        · rintro ⟨i, hi⟩
          fin_cases i
          · simp [Fin.cons_zero, a7, b7]
          · simp [Fin.cons_zero, a7, b7]
        · intro j
          obtain ⟨x, y, rfl⟩ := Poplar1.list_two a7
          obtain ⟨x', y', rfl⟩ := Poplar1.list_two b7
          rw [Finset.sum_coe_sort Finset.univ fun i : Fin 2 => (![[x, y], [x', y']] i).getD j 0, Fin.sum_univ_two]
          simp only [Fin.cons_zero, Matrix.cons_val_zero, Matrix.cons_val_one, List.zipWith_cons_cons, List.zipWith_nil_left]
          match j with
          | 0 => rfl
          | 1 => rfl
          | j + 2 => simp
      | 1 => cases hp
  refine ⟨![K, K'], ![some [[false], [true]], none], ![v, v'], Fin.cons (List.zipWith (· + ·) out out') fun _ => [],
    hne, ?_⟩
  refine Set.nonempty_of_ncard_ne_zero ?_
  rw [← C63_privacy toyPrims (alpha := ![[true, false], [false, true]])]
  · exact Set.ncard_ne_zero_of_mem hne.some_mem ((C63_finite 2 2).subset fun c hc => hc.1)
  · intro level prefixes hp
    match level with
    | 0 =>
      obtain rfl := Option.some.inj hp
      decide
    | 1 => cases hp
  · decide
  · decide
  · intro level prefixes hp
    match level with
    | 0 =>
      obtain rfl := Option.some.inj hp
      decide
    | 1 => cases hp
  · intro i
    fin_cases i
    · exact a2
    · exact b2
  · intro i
    fin_cases i
    · exact a3
    · exact b3

end Vdaf
